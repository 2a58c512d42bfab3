import Verif.Clients.Model
/-
What C77 is about: the value that a field finally has.
-/
namespace Verif.Clients

/-- `IsSetting opts f v`: the options leave the field at `v`: one of them assigns it, and none after that one assigns it again. -/
def IsSetting (opts : List Opt) (f : Field) (v : Nat) : Prop :=
  ∃ before after, opts = before ++ ⟨f, v⟩ :: after ∧ ∀ o ∈ after, o.field ≠ f

/-- The options that the documentation of `NewEventSource` reserves (`streams/event_source.go:52-59`). -/
def reserved : List Field := [.balancers, .group, .topics, .onAssigned, .onRevoked, .adjustOffsets]

/-- None of the options sets the field. -/
def Free (opts : List Opt) (f : Field) : Prop := ∀ o ∈ opts, o.field ≠ f

end Verif.Clients
