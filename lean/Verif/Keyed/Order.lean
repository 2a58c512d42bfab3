import Verif.Keyed.Spec
import Verif.Backlog.Proofs
import Verif.Props.Scheduler
/-
Proofs for C112: in every execution of the scheduler, the jobs of one caller and one key are completed in the order in which they were scheduled.
-/
namespace Verif.Keyed
open Verif.Scheduler Verif.Backlog

set_option linter.unusedSectionVars false

variable {K : Type} [DecidableEq K]

theorem comps_of_busyLog (k : K) (log : List (Ev K)) : (comps log).filter (fun x => decide (x.key = k)) = comps (busyLog k log) := by
  induction log with
  | nil => rfl
  | cons e log ih =>
    cases e with
    | sched x =>
      have h1 : comps (Ev.sched x :: log) = comps log := by simp [comps]
      have h2 : busyLog k (Ev.sched x :: log) = busyLog k log := by simp [busyLog]
      rw [h1, h2, ih]
    | start x =>
      have h1 : comps (Ev.start x :: log) = comps log := by simp [comps]
      have h2 : comps (busyLog k (Ev.start x :: log)) = comps (busyLog k log) := by
        by_cases e : x.key = k <;> simp [busyLog, comps, e]
      rw [h1, h2, ih]
    | comp x =>
      have h1 : comps (Ev.comp x :: log) = x :: comps log := by simp [comps]
      have h2 : comps (busyLog k (Ev.comp x :: log)) = if x.key = k then x :: comps (busyLog k log) else comps (busyLog k log) := by
        by_cases e : x.key = k <;> simp [busyLog, comps, e]
      rw [h1, h2, List.filter_cons, ih]
      by_cases e : x.key = k <;> simp [e]

theorem sub_eq (g : Nat) (k : K) (l : List (Job K)) : sub g k l = (l.filter fun x => decide (x.key = k)).filter fun x => decide (x.caller = g) := by
  unfold sub; rw [List.filter_filter]; congr 1; funext x; simp

/-- The completed jobs of a caller and a key are the first ones that were started. -/
theorem comps_starts {c : Config} {s : State K} (h : Scheduler.Reach c s) (g : Nat) (k : K) : sub g k (comps s.log) <+: sub g k (starts s.log) := by
  rw [sub_eq, sub_eq, comps_of_busyLog, starts_of_busyLog]
  refine List.IsPrefix.filter _ ?_
  obtain ⟨xs, hx | ⟨x, hx⟩⟩ := C16_history h k
  · rw [hx, comps_pairs, starts_pairs]; exact List.prefix_refl _
  · rw [hx, comps_append, starts_append, comps_pairs, starts_pairs]
    simp [comps, starts]

/-- The completed jobs of a caller and a key are the first ones that it has scheduled. -/
theorem comps_prefix {c : Config} {s : State K} (h : Scheduler.Reach c s) (g : Nat) (k : K) : sub g k (comps s.log) <+: sub g k (scheds s.log) :=
  (comps_starts h g k).trans (C17_fifo h g k)

end Verif.Keyed
