import Verif.Stages.Model
import Verif.Props.Exact
/-
What C113 is about: for every key by itself, one process that takes the records of the key one after the other through all places.
-/
namespace Verif.Stages

variable {K σ X : Type} [DecidableEq K]

/-- A record goes through the places `i, i + 1, …` (`m` of them): the state after it, and what is produced. -/
def through (c : Cfg K σ X) : Nat → Nat → σ → X → σ × List Nat
  | 0, _, s, _ => (s, [])
  | m + 1, i, s, x =>
    let rs := c.handle i s x
    let r := through c m (i + 1) (rs.foldl c.apply s) x
    (r.1, rs ++ r.2)

/-- The application for a key, as one that handles a record at once. -/
def whole (c : Cfg K σ X) (k : K) : Exact.App σ X := ⟨c.s0, fun s x => (through c (c.n k + 1) 0 s x).2, c.apply⟩

/-- The records of a key, in order. -/
def valsOf (k : K) (l : List (K × X)) : List X := (l.filter fun r => decide (r.1 = k)).map Prod.snd

/-- The state of a key after the records of a partition below an offset. -/
def stateAt (c : Cfg K σ X) (p : Nat) (k : K) (o : Nat) : σ := (Exact.handleAll (whole c k) (valsOf k ((c.src p).take o))).1

/-- What is produced for a key by the records of a partition below an offset. -/
def outsAt (c : Cfg K σ X) (p : Nat) (k : K) (o : Nat) : List Nat := (Exact.handleAll (whole c k) (valsOf k ((c.src p).take o))).2

/-- The offsets of the records of a key, from one offset on and below another. -/
def offsets (c : Cfg K σ X) (p : Nat) (k : K) (lo hi : Nat) : List Nat := (List.range hi).filter fun o => decide (lo ≤ o) && decide (((c.src p)[o]?).map Prod.fst = some k)

/-- The offsets of the events of a key for which the application was called at a place, in that order. -/
def calledAt (w : W K σ) (p : Nat) (k : K) (i : Nat) : List Nat := ((w.prod p).filter fun e => decide (e.1 = i) && decide (e.2.1.key = k)).map fun e => w.off e.2.1.id

/-- The offsets of the events of a key of a partition for which the processor of a scheduler was called, in that order. -/
def processedBy (w : W K σ) (p : Nat) (k : K) (i : Nat) : List Nat :=
  (w.sch i).log.filterMap fun e => match e with
    | .start y => if y.caller = p ∧ y.key = k then some (w.off y.id) else none
    | _ => none

/-- "You should only access your StateStore in one processor": for every key there is one place at which something is produced. -/
def OnePlace (c : Cfg K σ X) (a : K → Nat) : Prop := ∀ k, a k ≤ c.n k ∧ ∀ i, i ≤ c.n k → i ≠ a k → ∀ s x, c.handle i s x = []

end Verif.Stages
