import Verif.Fleet.Model
import Verif.Effects.Spec
/-
What C93 and C94 are about.
-/
namespace Verif.Fleet
open Verif.Eos Verif.Effects

/-- Some consumer has committed the source record at this offset. -/
def World.Handled (w : World) (tp o : Nat) : Prop := ∃ k e, (w.inst k).Committed e ∧ e.part = tp ∧ e.off = some o

/-- The newest offset record of the partition. -/
def World.wm (w : World) (tp : Nat) : Nat := (w.log tp).getLast?.getD 0

/-- The records that readers see, from all consumers, for the source record at this offset. -/
def World.effects (w : World) (tp o : Nat) : List Nat := effectsAt ((List.range w.n).map w.inst) tp o

/-- A consumer has records of the partition in its pool whose transaction has not been committed. -/
def Busy (i : Inc) (tp : Nat) : Prop := ∃ e g, (e, g) ∈ i.pool.added ∧ e.part = tp ∧ e.off ≠ none ∧ (g, true) ∉ i.pool.ended

/-- A worker starts only when no living consumer has a worker for the partition or is busy with records of it, and at the newest offset record. -/
def Orderly (w : World) : Act → Prop
  | .assign _ tp x => x = w.wm tp ∧ ∀ j, w.alive j = true → w.work j tp = none ∧ ¬ Busy (w.inst j) tp
  | _ => True

/-- The states of a group with such starts only. -/
inductive Calm (c : Cfg) (src : Nat → List Nat) : World → Prop where
  | init : Calm c src (World.init c)
  | step {w w' : World} (a : Act) : Calm c src w → Orderly w a → step c src w a = some w' → Calm c src w'

theorem Calm.reach {c : Cfg} {src : Nat → List Nat} {w : World} (h : Calm c src w) : Reach c src w := by
  induction h with
  | init => exact .init
  | step a _ _ hs ih => exact .step a ih hs

end Verif.Fleet
