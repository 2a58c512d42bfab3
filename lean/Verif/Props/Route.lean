import Verif.Route.Proofs
import Verif.Props.Record
/-
Property C52: which processor gets an event (`streams/event_source.go`).
-/
namespace Verif.Route
open Verif.Record
open Verif.Config (ErrorResponse)

/-- The processor that was registered first for a record type (specification). -/
def Spec.first (regs : List (Bytes × Nat)) (type : Bytes) : Option Nat :=
  match regs with
  | [] => none
  | (t, p) :: rest => if t = type then some p else Spec.first rest type

/-- Was the record given to the processor: how often (specification). -/
def Spec.seen (calls : List Call) (c : Call) : Nat := calls.count c

theorem first_find (regs : List (Bytes × Nat)) (t : Bytes) :
    (regs.find? fun x => decide (x.1 = t)).map (·.2) = Spec.first regs t := by
  induction regs with
  | nil => rfl
  | cons x regs ih =>
    obtain ⟨a, b⟩ := x
    rw [List.find?_cons]
    by_cases h : a = t
    · simp [Spec.first, h]
    · simp [Spec.first, h, ih]

theorem handle_eq (u : User) (regs : List (Bytes × Nat)) (r : Incoming) :
    handleEvent u (build regs) r =
      match (match Spec.first regs r.recordType with
        | some p => exec u p r
        | none => ([], some .unknown)) with
      | (calls, some .unknown) =>
        match u.dflt with
        | some d => (calls ++ [.default], some (d r))
        | none => (calls, none)
      | other => other := by
  obtain ⟨h1, h2, -⟩ := build_eq regs
  unfold handleEvent
  rw [h2, h1]
  by_cases hn : regs = []
  · subst hn; rfl
  · rw [if_neg hn]
    dsimp only
    have hl : 0 < regs.length := List.length_pos_iff.mpr hn
    rw [process_eq u regs r _ 0 hl (by simp [cells]), List.drop_zero, ← first_find]
    cases regs.find? fun x => decide (x.1 = r.recordType) <;> rfl

/-- C52. Of the registered processors only the one that was registered first for the record's type is given the record, once, and exactly if
it can decode it; if it cannot, the error handler is called instead and neither it nor the default processor sees the record.
For all registrations, users' functions and records. -/
theorem C52_registered (u : User) (regs : List (Bytes × Nat)) (r : Incoming) (p : Nat) :
    Spec.seen (handleEvent u (build regs) r).1 (.processor p) =
        (if Spec.first regs r.recordType = some p ∧ u.decodes p r = true then 1 else 0) ∧
      (∀ q, Spec.first regs r.recordType = some q → u.decodes q r = false →
        Spec.seen (handleEvent u (build regs) r).1 .default = 0 ∧
        (∀ h, u.onError = some h → handleEvent u (build regs) r =
          ([.errorHandler q], some (if h r = .continue then .complete else .incomplete)))) := by
  rw [handle_eq]
  cases hf : Spec.first regs r.recordType with
  | none =>
    refine ⟨?_, by simp⟩
    cases u.dflt <;> simp [Spec.seen]
  | some q =>
    dsimp only
    unfold exec
    cases hd : u.decodes q r with
    | false =>
      simp only [Bool.false_eq_true, if_false]
      have e : ¬ (some q = some p ∧ u.decodes p r = true) := by rintro ⟨e, h⟩; cases e; rw [hd] at h; cases h
      rw [if_neg e]
      cases ho : u.onError with
      | none => refine ⟨by simp [Spec.seen], ?_⟩; intro q' _ _; simp [Spec.seen]
      | some h =>
        by_cases hc : h r = .continue
        · refine ⟨by simp [Spec.seen, hc], ?_⟩
          rintro q' e' -; cases e'
          refine ⟨by simp [Spec.seen, hc], ?_⟩
          rintro h' e'; cases e'; simp [hc]
        · refine ⟨by simp [Spec.seen, hc], ?_⟩
          rintro q' e' -; cases e'
          refine ⟨by simp [Spec.seen, hc], ?_⟩
          rintro h' e'; cases e'; simp [hc]
    | true =>
      have e : (some q = some p ∧ u.decodes p r = true) ↔ q = p := by
        constructor
        · rintro ⟨e, -⟩; exact Option.some.inj e
        · rintro rfl; exact ⟨rfl, hd⟩
      refine ⟨?_, by rintro q' e' h; cases e'; rw [hd] at h; cases h⟩
      have key : ∀ l, (l = [Call.processor q] ∨ l = [Call.processor q] ++ [Call.default]) →
          Spec.seen l (.processor p) = if some q = some p ∧ u.decodes p r = true then 1 else 0 := by
        rintro l (rfl | rfl)
        · by_cases hq : q = p
          · rw [if_pos (e.mpr hq)]; simp [Spec.seen, hq]
          · rw [if_neg (fun h => hq (e.mp h))]; simp [Spec.seen, hq]
        · by_cases hq : q = p
          · rw [if_pos (e.mpr hq)]; simp [Spec.seen, hq]
          · rw [if_neg (fun h => hq (e.mp h))]; simp [Spec.seen, hq]
      apply key
      simp only [if_true]
      cases hres : u.run q r with
      | unknown => cases u.dflt <;> simp
      | _ => simp

/-- C52, in part: if the functions are not nil and the processors return one of the three documented results, exactly one processor, or the
error handler, gets the event, and its result is the result. Missing: see `C52_violated_unknown`, `C52_violated_nil`. -/
theorem C52_exactly_one_partial (u : User) (regs : List (Bytes × Nat)) (r : Incoming) {d : Incoming → Exec} {h : Incoming → ErrorResponse}
    (hd : u.dflt = some d) (hh : u.onError = some h) (hr : ∀ p r, u.run p r ≠ .unknown) :
    handleEvent u (build regs) r = match Spec.first regs r.recordType with
      | none => ([.default], some (d r))
      | some p => if u.decodes p r then ([.processor p], some (u.run p r))
        else ([.errorHandler p], some (if h r = .continue then .complete else .incomplete)) := by
  rw [handle_eq]
  cases Spec.first regs r.recordType with
  | none => simp [hd]
  | some q =>
    dsimp only
    unfold exec
    cases hq : u.decodes q r with
    | false =>
      simp only [Bool.false_eq_true, if_false, hh]
      by_cases hc : h r = .continue <;> simp [hc]
    | true =>
      simp only [if_true]
      have := hr q r
      cases hres : u.run q r <;> simp_all

/-- A user with two processors, the first of which cannot decode records without a value. -/
def exUser : User :=
  { decodes := fun p r => p ≠ 0 || r.kRecord.value.isSome
    run := fun p _ => if p = 0 then .complete else .incomplete
    dflt := some fun _ => .complete
    onError := some fun _ => .failConsumer }

/-- Types 1, 2, 1 again: the first registration for type 1 counts; type 3 goes to the default processor. -/
example : handleEvent exUser (build [([1], 0), ([2], 1), ([1], 2)]) { kRecord := { value := some [] }, recordType := [1] } = ([.processor 0], some .complete) ∧
    handleEvent exUser (build [([1], 0), ([2], 1), ([1], 2)]) { kRecord := {}, recordType := [1] } = ([.errorHandler 0], some .incomplete) ∧
    handleEvent exUser (build [([1], 0), ([2], 1), ([1], 2)]) { kRecord := {}, recordType := [2] } = ([.processor 1], some .incomplete) ∧
    handleEvent exUser (build [([1], 0), ([2], 1), ([1], 2)]) { kRecord := {}, recordType := [3] } = ([.default], some .complete) ∧
    (∀ p r, exUser.run p r ≠ .unknown) := by
  refine ⟨by decide, by decide, by decide, by decide, ?_⟩
  intro p r; simp only [exUser]; split <;> simp

/-- C52 end to end: a record built by any calls of the record API (`ops`) and produced is, when it comes back as an event, given to the first processor
for the type it was given last (`WithRecordType`), unless a header was added under the reserved key by hand. -/
theorem C52_forwarded_type (u : User) (regs : List (Bytes × Nat)) (ops : List Op) (p : Nat)
    (hh : Record.Spec.lastType (Record.Spec.headers ops) = none)
    (hp : Spec.first regs (Record.Spec.type ops) = some p) (hd : ∀ r, u.decodes p r = true) :
    Spec.seen (handleEvent u (build regs) (newIncoming (toKafkaRecord (Record.build ops)).kRecord)).1 (.processor p) = 1 := by
  rw [(C52_registered u regs _ p).1, C48_type_survives, hh, if_pos ⟨hp, hd _⟩]

example : Record.Spec.lastType (Record.Spec.headers [.type [1], .header [9] [9], .type [2]]) = none ∧
    Spec.first [([1], 0), ([2], 1)] (Record.Spec.type [.type [1], .header [9] [9], .type [2]]) = some 1 := by
  decide

/-- C52 is violated: a processor that returns the value of the internal constant `unknownType` (3) hands the event to the default processor too. -/
theorem C52_violated_unknown : ∃ (u : User) (regs : List (Bytes × Nat)) (r : Incoming) (d : Incoming → Exec), u.dflt = some d ∧
    (handleEvent u (build regs) r).1 = [.processor 0, .default] := by
  refine ⟨{ decodes := fun _ _ => true, run := fun _ _ => .unknown, dflt := some fun _ => .complete, onError := none }, [([1], 0)],
    { kRecord := {}, recordType := [1] }, _, rfl, by decide⟩

/-- C52 is violated: without a default processor an event of a type that is not registered is a nil call. -/
theorem C52_violated_nil (u : User) (regs : List (Bytes × Nat)) (r : Incoming) (hd : u.dflt = none)
    (hf : Spec.first regs r.recordType = none) : handleEvent u (build regs) r = ([], none) := by
  rw [handle_eq, hf, hd]

example : ∃ (u : User) (regs : List (Bytes × Nat)) (r : Incoming), u.dflt = none ∧ regs ≠ [] ∧ Spec.first regs r.recordType = none :=
  ⟨{ exUser with dflt := none }, [([1], 0)], { kRecord := {}, recordType := [7] }, rfl, by decide, by decide⟩

end Verif.Route
