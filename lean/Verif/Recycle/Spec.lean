import Verif.Recycle.Model
/-
What C75 is about, in terms of what happened: which calls are still on their way and who has an object.
-/
namespace Verif.Recycle
open Verif.Eos

/-- The record of a call of `ProduceRecord` that used this object, with this contents at the call, is still on its way: its callback
has not been called. `streams/eos_producer.go:494-536`. -/
def Away (s : St) (out : Out) (o v : Nat) : Prop := (out, o, v) ∈ s.objs ∧ out ∉ s.released

/-- The number of records on their way. `streams/eos_producer.go:494-536`. -/
def awayCount (s : St) : Nat := (s.objs.filter fun x => x.1 ∉ s.released).length

/-- The application has handed over or given back this object in this step. `streams/event_context.go:146-173`,
`streams/record.go:293`. -/
def gives (a : Act) (o : Nat) : Prop := a = .drop o ∨ ∃ e x, a = .forward e x o

end Verif.Recycle
