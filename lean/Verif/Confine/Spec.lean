import Verif.Confine.Model
/-
What C115 is about: the order "happens before" of the Go memory model, restricted to the starts of goroutines, the closing of channels and one lock; and the executions in which partitions are prepared and assigned calmly.
-/
namespace Verif.Confine

/-- Who does it. -/
def Op.gor : Op → Gor
  | .acc g _ _ => g
  | .snd g _ => g
  | .rcv g _ => g
  | .lock g => g
  | .unlock g => g

/-- The operation at place `i` of a trace happens before that at place `j`: it is an earlier one of the same goroutine, or the sending of what is received there, or an unlocking before a locking, or there is a chain of such. -/
inductive Before (tr : List Op) : Nat → Nat → Prop where
  | same {i j : Nat} {a b : Op} : i < j → tr[i]? = some a → tr[j]? = some b → a.gor = b.gor → Before tr i j
  | chan {i j : Nat} {g g' : Gor} {m : Msg} : i < j → tr[i]? = some (.snd g m) → tr[j]? = some (.rcv g' m) → Before tr i j
  | lock {i j : Nat} {g g' : Gor} : i < j → tr[i]? = some (.unlock g) → tr[j]? = some (.lock g') → Before tr i j
  | trans {i j k : Nat} : Before tr i j → Before tr j k → Before tr i k

/-- Does it change the store? -/
def Kind.writes : Kind → Bool
  | .handled w => w
  | _ => true

/-- Two accesses conflict: same store, at least one of them changes it. -/
def Conflict (a b : Op) : Prop :=
  match a, b with
  | .acc _ st k, .acc _ st' k' => st = st' ∧ (k.writes = true ∨ k'.writes = true)
  | _, _ => False

/-- The access is a call of `Revoked`. -/
def Op.isRevoked : Op → Prop
  | .acc _ _ .revoked => True
  | _ => False

/-- Places `i` and `j` of the trace are a data race: accesses that conflict, none of which happens before the other. -/
def RaceAt (tr : List Op) (i j : Nat) : Prop := ∃ a b, tr[i]? = some a ∧ tr[j]? = some b ∧ i ≠ j ∧ Conflict a b ∧ ¬ Before tr i j ∧ ¬ Before tr j i

/-- In state `s` both accesses can be the next one, in either order, one immediately after the other, and they conflict and are by different goroutines: nothing whatever orders them. -/
def Together (s : St) (x y : Act) (a b : Op) : Prop :=
  Conflict a b ∧ a.gor ≠ b.gor ∧ ∃ s1 s2, run s [x, y] = some s1 ∧ run s [y, x] = some s2 ∧ (∃ l, s1.tr = s.tr ++ l ∧ l.filter (fun o => o = a ∨ o = b) = [a, b]) ∧
    ∃ l, s2.tr = s.tr ++ l ∧ l.filter (fun o => o = a ∨ o = b) = [b, a]

/-- No `populate` goroutine of the partition is left. -/
def Idle (s : St) (p : Nat) : Prop := ∀ n, n < s.pops → s.pPart n = p → s.pSt n = .done

/-- A calm step: a partition is prepared, or assigned without preparation, when the consumer has no worker for it, no store that somebody has begun to fill, and no goroutine that still fills an earlier one; it is assigned after a
preparation when the preparation is complete. Everything else may happen at any time. -/
def CalmStep (s : St) : Act → Prop
  | .prepare _ p => s.prepping p = none → s.workers p = none ∧ s.data p = none ∧ Idle s p
  | .assign _ p =>
    match s.prepping p with
    | some n => s.workers p = none ∧ s.wait (.prep n) = .got
    | none => s.workers p = none → s.data p = none ∧ Idle s p
  | _ => True

/-- Executions with calm steps only. -/
inductive Calm : St → Prop where
  | init : Calm St.init
  | step {s s' : St} (x : Act) : Calm s → CalmStep s x → step s x = some s' → Calm s'

/-- Messages are received after they were sent, and each was sent in one place only: what `Before` says about them is not more than Go says. -/
def Orderly (tr : List Op) : Prop :=
  (∀ (j : Nat) g m, tr[j]? = some (Op.rcv g m) → ∃ i g', i < j ∧ tr[i]? = some (Op.snd g' m)) ∧
    ∀ (i j : Nat) g g' m, tr[i]? = some (Op.snd g m) → tr[j]? = some (Op.snd g' m) → i = j

end Verif.Confine
