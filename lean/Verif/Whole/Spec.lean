import Verif.Whole.Model
import Verif.Effects.Spec
/-
What C96 and C97 are about.
-/
namespace Verif.Whole
open Verif.Worker (PW It)

/-- The newest offset record of a partition. -/
def Group.newest (w : Group) (tp : Nat) : Nat := (w.log tp).getLast?.getD 0

/-- How many transactions have not ended and have an event of worker `j` as their first event of its partition. -/
def Group.entered (w : Group) (k j : Nat) : Nat :=
  (List.range ((w.inst k).pool.gen + 1)).countP fun g => decide ((w.inst k).pool.ended.length ≤ g) &&
    decide (((w.inst k).pool.added.find? fun x => x.2 = g ∧ x.1.part = w.part k j).map (fun x => owner x.1) = some j)

/-- A step of a group in which partitions are handed over in an orderly way: a worker is made only when all workers for its partition, in all living
consumers, have ended, and a worker that starts has read the newest offset record. -/
structure Tidy (w w' : Group) : Prop where
  made : ∀ k j, w.nw k ≤ j → j < w'.nw k → ∀ k' j', w.alive k' = true → j' < w.nw k' → w.part k' j' = w'.part k j → (w.wks k' j').wk = .stopped
  read : ∀ k j, (w.wks k j).wk = .boot → (w'.wks k j).wk ≠ .boot → (w'.wks k j).wm.toNat = w.newest (w.part k j)

/-- The states of such a group. -/
inductive Neat (c : Eos.Cfg) (ecap : Nat) (src : Nat → List Nat) : Group → Prop where
  | init : Neat c ecap src (Group.init c)
  | step {w w' : Group} (a : Act) : Neat c ecap src w → step c ecap src w a = some w' → Tidy w w' → Neat c ecap src w'

theorem Neat.reach {c : Eos.Cfg} {ecap : Nat} {src : Nat → List Nat} {w : Group} (h : Neat c ecap src w) : Reach c ecap src w := by
  induction h with
  | init => exact .init
  | step a _ hs _ ih => exact .step a ih hs

/-- From `w` to `w'` with `n` steps of consumer `k` by itself, and any number of others meanwhile. -/
inductive Calm (c : Eos.Cfg) (ecap : Nat) (src : Nat → List Nat) (k : Nat) (w : Group) : Nat → Group → Prop where
  | start : Calm c ecap src k w 0 w
  | next {n : Nat} {w1 w2 : Group} (a : Act) : Calm c ecap src k w n w1 → internal c w1 k a = true → step c ecap src w1 a = some w2 →
      Calm c ecap src k w (n + 1) w2
  | aside {n : Nat} {w1 w2 : Group} (a : Act) : Calm c ecap src k w n w1 → aside k a = true → step c ecap src w1 a = some w2 →
      Calm c ecap src k w n w2

/-- Everything that consumer `k` was given is done: its events are completed and their transactions have ended; records are committed. A worker that
has started and is not revoked has called the handler with all records that were fetched, from its watermark on, and has nothing left; one that is
revoked has ended. -/
structure Settled (c : Eos.Cfg) (w : Group) (k : Nat) : Prop where
  events : ∀ e g, (e, g) ∈ (w.inst k).pool.added → e.id ∈ (w.inst k).pool.done ∧ g ∈ (w.inst k).pool.ended.map Prod.fst ∧
    (e.off ≠ none → (w.inst k).Committed e)
  pool : (w.inst k).pool.com = .idle ∧ (w.inst k).pool.cq = [] ∧ (w.inst k).pool.fwd = .idle
  ended : ∀ j, j < w.nw k → (w.wks k j).wk ≠ .boot → (w.wks k j).revoked = true → (w.wks k j).wk = .stopped
  idle : ∀ j, j < w.nw k → (w.wks k j).wk ≠ .boot → (w.wks k j).revoked = false →
    (w.wks k j).wk = .idle ∧ (w.wks k j).slots = 0 ∧ (w.wks k j).waiter = 0 ∧
    (w.wks k j).offered = ((w.wks k j).fetched.filterMap id).filter (fun (o : Nat) => decide ((w.wks k j).wm ≤ (o : Int))) ∧
    ∀ o ∈ (w.wks k j).offered, ∃ it : It, it.off = some o ∧ (w.inst k).Committed (w.ev k j it)
  boot : ∀ j, j < w.nw k → (w.wks k j).wk = .boot → ∀ x ∈ 0 :: w.log (w.part k j), x < w.start k j

end Verif.Whole
