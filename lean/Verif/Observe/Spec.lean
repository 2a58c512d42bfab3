import Verif.Observe.Model
/-
What is claimed about the partition callbacks and about pausing, in terms of the trace only.
-/
namespace Verif.Observe

/-- Whether the client has paused partition `p` after these events. Specification for `streams/partition_worker.go:212-224`. -/
def pausedIn (p : Nat) : List Ev → Bool :=
  List.foldl (fun b e => match e with
    | .paused _ q => if q = p then true else b
    | .resumed _ q => if q = p then false else b
    | _ => b) false

/-- How often a worker of partition `p` was told to stop (`streams/source_consumer.go:235`). -/
def cuts (p : Nat) (tr : List Ev) : Nat :=
  tr.countP fun e => match e with
    | .cut _ q => q = p
    | _ => false

/-- What must have happened before an event. Specification of the comments of `streams/source.go:84-99` as far as they hold.
* a worker is created for a partition only if all its earlier workers were told to stop;
* it is told to stop only after `OnPartitionWillRevoke`, once;
* synchronisation comes before activation, which comes once and before the first handler call;
* a producer is granted only to synchronised workers that were not told to stop, and every handler call has its own grant;
* at `OnPartitionAssigned` the partition has a worker; at `OnPartitionRevoked` all its workers were told to stop, and there was an `OnPartitionWillRevoke` of
  its own;
* a partition is fetched only if it has a worker and is not paused. -/
def before (a : List Ev) : Ev → Prop
  | .created w p => ∀ v, Ev.created v p ∈ a → v ≠ w ∧ Ev.cut v p ∈ a
  | .cut w p => Ev.created w p ∈ a ∧ Ev.cut w p ∉ a ∧ cuts p a < a.count (.will p)
  | .synced w p => Ev.paused w p ∈ a
  | .resumed w p => Ev.synced w p ∈ a
  | .activated w p => Ev.synced w p ∈ a ∧ Ev.activated w p ∉ a
  | .grant w p => Ev.synced w p ∈ a ∧ Ev.cut w p ∉ a
  | .started w p => Ev.activated w p ∈ a ∧ a.count (.started w p) < a.count (.grant w p)
  | .finished w p => a.count (.finished w p) < a.count (.started w p)
  | .assigned p => ∃ w, Ev.created w p ∈ a ∧ Ev.cut w p ∉ a
  | .revoked p => a.count (.revoked p) < a.count (.will p) ∧ ∀ w, Ev.created w p ∈ a → Ev.cut w p ∈ a
  | .fetched p => pausedIn p a = false ∧ ∃ w, Ev.created w p ∈ a ∧ Ev.cut w p ∉ a
  | .paused w p => Ev.created w p ∈ a ∧ Ev.paused w p ∉ a
  | .will _ => True

end Verif.Observe
