import Verif.Effects.Model
/-
What C76 is about: the incarnations, what readers see, and which events are committed.
-/
namespace Verif.Effects
open Verif.Eos Verif.Exact

/-- All incarnations, the current one last. -/
def World.incs (w : World) : List Inc := w.past ++ [w.cur]

/-- The watermark that the commit log shows now. -/
def World.wm (w : World) (tp : Nat) : Nat := watermark w.incs tp

/-- The records of the application that read-committed readers see from an incarnation for the events of a partition, in the order of the log,
with their events. -/
def Inc.seen (i : Inc) (tp : Nat) : List (Ev × Nat) :=
  (i.pool.sent.filter fun o => o.part = tp ∧ (o.gen, true) ∈ i.pool.ended).filterMap fun o => match o.r with
    | .user k => i.prods[k]?
    | .commit _ _ => none

/-- The event is in a transaction that was committed. -/
def Inc.Committed (i : Inc) (e : Ev) : Prop := ∃ g, (e, g) ∈ i.pool.added ∧ (g, true) ∈ i.pool.ended

/-- The records that the application has produced for an event. -/
def Inc.made (i : Inc) (e : Ev) : List Nat := (i.prods.filter fun x => x.1 = e).map Prod.snd

/-- The records that readers see, from all incarnations, for the source record at this offset. -/
def effectsAt (incs : List Inc) (tp o : Nat) : List Nat :=
  incs.flatMap fun i => ((i.seen tp).filter fun x => x.1.off = some o).map Prod.snd

end Verif.Effects
