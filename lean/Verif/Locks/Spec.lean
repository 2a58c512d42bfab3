import Verif.Locks.Model
/-
What is claimed about the locks: as long as a goroutine has something left to do, some goroutine can go on.
-/
namespace Verif.Locks

/-- The states that can arise when the jobs of the group goroutine satisfy `P` (`streams/source_consumer.go:190-251`). -/
inductive Reach (P : Job → Prop) : St → Prop
  | init : Reach P St.init
  | step {s s' : St} {l : Label} (h : Reach P s) (hj : ∀ j, l = .job j → P j) (hs : step s l = some s') : Reach P s'

/-- No callback of this job calls `Interject` (`streams/event_source.go:313-315`). -/
def Job.Quiet : Job → Prop
  | .join => True
  | .parse _ _ => True
  | .assign _ calls => calls = 0
  | .revoke will calls => (∀ c ∈ will, c = (0, 0)) ∧ calls = 0

/-- Nobody has anything left to do (`streams/source_consumer.go:139-251`). -/
def St.Idle (s : St) : Prop := ∀ who, s.prog who = []

/-- This goroutine has something left to do and can not go on for now (`streams/source_consumer.go:139-251`). -/
def St.Blocked (s : St) (who : Option Nat) : Prop := s.prog who ≠ [] ∧ step s (.run who) = none

/-- The number of instructions that this one leads to, itself included: starting a goroutine leads to the instructions of that goroutine
(`streams/source_consumer.go:139-188`). -/
def cost : Instr → Nat
  | .lock _ => 1
  | .unlock _ => 1
  | .wait => 1
  | .synced => 3
  | .forget known => if known then 5 else 3
  | .prepare known => if known then 3 else 10

/-- What a program leads to (`streams/source_consumer.go:139-188`). -/
def costs (p : List Instr) : Nat := (p.map cost).sum

/-- What is left to do altogether (`streams/source_consumer.go:139-188`). -/
def St.left (s : St) : Nat := costs s.g + (s.ts.map fun t => costs t.prog).sum

end Verif.Locks
