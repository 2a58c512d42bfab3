import Verif.Context.Model
/-
What the application asked for, read off the calls.
-/
namespace Verif.Context.Spec
open Verif.Record

/-- All key bytes written, in order. -/
def key (ops : List EntryOp) : Bytes := ops.flatMap fun | .key bs => bs.flatten | _ => []
/-- All value bytes written, in order. -/
def value (ops : List EntryOp) : Bytes := ops.flatMap fun | .value bs => bs.flatten | _ => []
/-- All headers added, in order. -/
def headers (ops : List EntryOp) : List Header := ops.filterMap fun | .header k v => some ⟨k, v⟩ | _ => none
/-- The last type set, empty if none. -/
def type (ops : List EntryOp) : Bytes := ((ops.filterMap fun | .type t => some t | _ => none).getLast?).getD []

/-- What the producer's client must get for an entry: `topic` and `p` are those of the change log partition. An empty value is nil (a tombstone); a type
becomes a header, unless the application has added such a header itself. -/
def expected (topic : Bytes) (p : BitVec 32) (ops : List EntryOp) (k : KRecord) : Prop :=
  k.topic = topic ∧ k.partition = p ∧ k.key = key ops ∧ k.value = (if value ops = [] then none else some (value ops)) ∧
  k.headers = headers ops ++
    (if type ops ≠ [] ∧ (∀ h ∈ headers ops, h.key ≠ ascii "__grt__") then [⟨ascii "__grt__", type ops⟩] else [])

end Verif.Context.Spec
