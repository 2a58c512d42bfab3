import Verif.Keyed.Model
import Verif.Props.Exact
/-
What C112 is about: for every key by itself, one process that handles the records of the key one after the other.
-/
namespace Verif.Keyed

variable {K σ X : Type} [DecidableEq K]

/-- The records of a key, in order. -/
def valsOf (k : K) (l : List (K × X)) : List X := (l.filter fun r => decide (r.1 = k)).map Prod.snd

/-- The state of a key after handling the records of a partition below an offset. -/
def stateAt (c : Cfg K σ X) (p : Nat) (k : K) (o : Nat) : σ := (Exact.handleAll c.app (valsOf k ((c.src p).take o))).1

/-- What is produced for a key by handling the records of a partition below an offset. -/
def outsAt (c : Cfg K σ X) (p : Nat) (k : K) (o : Nat) : List Nat := (Exact.handleAll c.app (valsOf k ((c.src p).take o))).2

/-- All records of a key are scheduled, or none is ("all events for a given key must go through the async processor"). -/
def Uniform (c : Cfg K σ X) : Prop := ∀ k x x', c.async k x = c.async k x'

end Verif.Keyed
