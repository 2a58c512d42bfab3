import Verif.Shared.Model
/-
What C111 is about: the order "happens before" of the Go memory model, restricted to what channels give.
-/
namespace Verif.Shared

/-- Who does it. -/
def Op.gor : Op → Gor
  | .acc g _ _ _ => g
  | .snd g _ => g
  | .rcv g _ => g

/-- The operation at place `i` of a trace happens before that at place `j`: it is an earlier one of the same goroutine, or the sending of what is received there, or there is a chain of such. -/
inductive Before (tr : List Op) : Nat → Nat → Prop where
  | same {i j : Nat} {a b : Op} : i < j → tr[i]? = some a → tr[j]? = some b → a.gor = b.gor → Before tr i j
  | chan {i j : Nat} {g g' : Gor} {m : Msg} : i < j → tr[i]? = some (.snd g m) → tr[j]? = some (.rcv g' m) → Before tr i j
  | trans {i j k : Nat} : Before tr i j → Before tr j k → Before tr i k

/-- Two accesses conflict: same field of the same context, at least one of them a write. -/
def Conflict (a b : Op) : Prop :=
  match a, b with
  | .acc _ e f w, .acc _ e' f' w' => e = e' ∧ f = f' ∧ (w = true ∨ w' = true)
  | _, _ => False

/-- The access is to the producer of a context, by the commit loop. -/
def Text (a : Op) : Prop := ∃ e w, a = .acc .com e .producer w

/-- Places `i` and `j` of the trace are a data race: accesses that conflict, none of which happens before the other. -/
def RaceAt (tr : List Op) (i j : Nat) : Prop := ∃ a b, tr[i]? = some a ∧ tr[j]? = some b ∧ i ≠ j ∧ Conflict a b ∧ ¬ Before tr i j ∧ ¬ Before tr j i

/-- Is it the step of a commit that waited for too long? -/
def Act.late : Act → Bool
  | .timeout _ => true
  | _ => false

/-- Executions in which the commit loop never waits for too long. -/
inductive Prompt (pt : Nat → Nat) (poolSize : Nat) : St → Prop where
  | init : Prompt pt poolSize (St.init poolSize)
  | step {s s' : St} (x : Act) : Prompt pt poolSize s → x.late = false → step pt s x = some s' → Prompt pt poolSize s'

/-- Messages are received after they were sent, and each was sent in one place only: what `Before` says about them is not more than Go says. -/
def Orderly (tr : List Op) : Prop :=
  (∀ (j : Nat) g m, tr[j]? = some (Op.rcv g m) → ∃ i g', i < j ∧ tr[i]? = some (Op.snd g' m)) ∧
    ∀ (i j : Nat) g g' m, tr[i]? = some (Op.snd g m) → tr[j]? = some (Op.snd g' m) → i = j

end Verif.Shared
