import Verif.Loss.Model
/-
What readers see of the records of a pool, for C84.
-/
namespace Verif.Loss
open Verif.Eos

/-- The records that read-committed readers see, in the order of the calls: those that were stored in a transaction that was committed. -/
def visible (s : St) : List Out :=
  (s.pool.sent.zipIdx.filter fun x => x.2 ∈ s.stored ∧ (x.1.gen, true) ∈ s.pool.ended).map Prod.fst

/-- A record of the transaction could not be produced. -/
def Bad (s : St) (g : Nat) : Prop := ∃ k ∈ s.failed, ∃ o, s.pool.sent[k]? = some o ∧ o.gen = g

end Verif.Loss
