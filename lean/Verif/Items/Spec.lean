import Verif.Items.Model
/-
What C118 is about: the order "happens before" of the Go memory model, restricted to the lock of the batcher, starts of goroutines, channels and atomic counters.
-/
namespace Verif.Items

/-- Who does it. -/
def Op.gor : Op → Gor
  | .acc g _ _ => g
  | .snd g _ => g
  | .rcv g _ => g
  | .lock g => g
  | .unlock g => g
  | .atom g _ => g

/-- The operation at place `i` of a trace happens before that at place `j`: it is an earlier one of the same goroutine, or the sending of what is received there, or an unlocking before a locking, or an earlier operation on the same atomic counter, or
there is a chain of such. -/
inductive Before (tr : List Op) : Nat → Nat → Prop where
  | same {i j : Nat} {a b : Op} : i < j → tr[i]? = some a → tr[j]? = some b → a.gor = b.gor → Before tr i j
  | chan {i j : Nat} {g g' : Gor} {m : Msg} : i < j → tr[i]? = some (.snd g m) → tr[j]? = some (.rcv g' m) → Before tr i j
  | lock {i j : Nat} {g g' : Gor} : i < j → tr[i]? = some (.unlock g) → tr[j]? = some (.lock g') → Before tr i j
  | atom {i j : Nat} {g g' : Gor} {b : Nat} : i < j → tr[i]? = some (.atom g b) → tr[j]? = some (.atom g' b) → Before tr i j
  | trans {i j k : Nat} : Before tr i j → Before tr j k → Before tr i k

/-- Two accesses conflict: same place in memory, at least one of them a write. -/
def Conflict (a b : Op) : Prop :=
  match a, b with
  | .acc _ l w, .acc _ l' w' => l = l' ∧ (w = true ∨ w' = true)
  | _, _ => False

/-- Places `i` and `j` of the trace are a data race: accesses that conflict, none of which happens before the other. -/
def RaceAt (tr : List Op) (i j : Nat) : Prop := ∃ a b, tr[i]? = some a ∧ tr[j]? = some b ∧ i ≠ j ∧ Conflict a b ∧ ¬ Before tr i j ∧ ¬ Before tr j i

/-- Messages are received after they were sent, and each was sent in one place only: what `Before` says about them is not more than Go says. -/
def Orderly (tr : List Op) : Prop :=
  (∀ (j : Nat) g m, tr[j]? = some (Op.rcv g m) → ∃ i g', i < j ∧ tr[i]? = some (Op.snd g' m)) ∧
    ∀ (i j : Nat) g g' m, tr[i]? = some (Op.snd g m) → tr[j]? = some (Op.snd g' m) → i = j

end Verif.Items
