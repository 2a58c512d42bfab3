import Verif.Batches.Model
import Verif.Props.Exact
/-
What C114 is about: for every key by itself, one process that handles the records of the key one after the other.
-/
namespace Verif.Batches

variable {K σ X : Type} [DecidableEq K]

/-- The records of a key, in order. -/
def valsOf (k : K) (l : List (K × X)) : List X := (l.filter fun r => decide (r.1 = k)).map Prod.snd

/-- The state of a key after handling the records of a partition below an offset. -/
def stateAt (c : Cfg K σ X) (p : Nat) (k : K) (o : Nat) : σ := (Exact.handleAll c.app (valsOf k ((c.src p).take o))).1

/-- What is produced for a key by handling the records of a partition below an offset. -/
def outsAt (c : Cfg K σ X) (p : Nat) (k : K) (o : Nat) : List Nat := (Exact.handleAll c.app (valsOf k ((c.src p).take o))).2

/-- After a record without items there are only such records of its key: no batch with items comes after an empty one of the same key. -/
def NoMix (c : Cfg K σ X) : Prop :=
  ∀ (p i j : Nat) (k : K) (x x' : X), i < j → (c.src p)[i]? = some (k, x) → (c.src p)[j]? = some (k, x') → c.parts k x = 0 → c.parts k x' = 0

/-- The items of the records of a key in a partition, from one offset on and below another: offset of the record and number of the item. -/
def itemsOf (c : Cfg K σ X) (p : Nat) (k : K) (lo hi : Nat) : List (Nat × Nat) :=
  (List.range hi).flatMap fun o =>
    match (c.src p)[o]? with
    | some (k', x) => if lo ≤ o ∧ k' = k then (List.range (c.parts k x)).map fun i => (o, i) else []
    | none => []

/-- What was handed to the executor for a key of a partition, in that order: offset of the record and number of the item. -/
def executed (w : W K σ) (p : Nat) (k : K) : List (Nat × Nat) :=
  (w.bat.calls.flatten.filter fun x => decide (x.key = k) && decide ((w.evt x.batch).map Scheduler.Job.caller = some p)).map fun x => (w.off x.batch, x.idx)

end Verif.Batches
