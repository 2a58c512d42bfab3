import Verif.Replica.Model
import Verif.Props.Exact
/-
What C109 is about: one process that handles the records of a partition one after the other.
-/
namespace Verif.Replica
open Verif.Eos

variable {σ X : Type}

/-- The records of a partition below an offset. -/
def before (src : Nat → List Nat) (val : Nat → Nat → X) (tp o : Nat) : List X := ((src tp).filter fun o' => o' < o).map (val tp)

/-- The store after handling them. -/
def stateAt (a : Exact.App σ X) (src : Nat → List Nat) (val : Nat → Nat → X) (tp o : Nat) : σ := (Exact.handleAll a (before src val tp o)).1

/-- The records produced by handling them. -/
def outsAt (a : Exact.App σ X) (src : Nat → List Nat) (val : Nat → Nat → X) (tp o : Nat) : List Nat := (Exact.handleAll a (before src val tp o)).2

/-- The records produced for the record at an offset. -/
def due (a : Exact.App σ X) (src : Nat → List Nat) (val : Nat → Nat → X) (tp o : Nat) : List Nat := a.handle (stateAt a src val tp o) (val tp o)

/-- The states that a group can reach from another one with orderly hand-overs. -/
inductive Later (c : Cfg) (a : Exact.App σ X) (src : Nat → List Nat) (val : Nat → Nat → X) (w : W σ) : W σ → Prop where
  | refl : Later c a src val w w
  | step {w1 w2 : W σ} (x : Act) : Later c a src val w w1 → Orderly w1 x → step c a src val w1 x = some w2 → Later c a src val w w2

end Verif.Replica
