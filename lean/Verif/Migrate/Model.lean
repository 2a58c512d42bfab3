/-
Examples 3 and 4 of the documentation (`docs/asyncprocessing.md:149-303`): the store is filled from an external database key by key. The handler looks whether the store has the key; an asynchronous job reads the database if not; the finalizer
looks again, puts what was read into the store if it still has nothing, and then applies the event. In Example 4 a second asynchronous stage then writes the event to the database as well.

The library parts are the scheduler (`streams/async_scheduler.go`), the completion of jobs in the worker (`streams/partition_worker.go:258-263`), commits and new beginnings. Simplifications: one partition; of the scheduler what C16, C17 and
C113 say of it: jobs of one key are processed one after the other, and their finalizers run in the same order, perhaps later; all else in any order.
-/
namespace Verif.Migrate

/-- The application: the key of an event; what `seed` makes of what was read; `update`, which may delete; the write to the database; whether there is a second stage (`docs/asyncprocessing.md:188-200,260-278`, given to `streams/async_scheduler.go:163-210`). -/
structure App (V D : Type) where
  key : Nat → Nat
  seed : D → V
  upd : Option V → Nat → Option V
  wr : D → Nat → D
  dual : Bool

/-- Where the process began; the number of events handled; how far each event is (0 not handled, 1 scheduled, 2 processed by the first stage, 3 finalized there, 4 written by the second stage); what the handler saw (`job.migrated`) and what was
read (`job.results`); the store; the database; ghost: what the change log has for each event, and the watermark (`docs/asyncprocessing.md:160-200,243-282`, `streams/async_scheduler.go:78-92`). -/
structure St (V D : Type) where
  base : Nat
  n : Nat
  ph : Nat → Nat
  mig : Nat → Bool
  res : Nat → D
  store : Nat → Option V
  ext : Nat → D
  out : Nat → Option V
  com : Nat

/-- The change of one place (`streams/async_scheduler.go:78-92`; a helper). -/
def put {α : Type} (f : Nat → α) (i : Nat) (x : α) : Nat → α := fun j => if j = i then x else f j

/-- The beginning: an empty store, the database as it is (`docs/asyncprocessing.md:202-215`, `streams/partition_worker.go:205-222`). -/
def St.init {V D : Type} (ext0 : Nat → D) : St V D :=
  { base := 0, n := 0, ph := fun _ => 0, mig := fun _ => false, res := ext0, store := fun _ => none, ext := ext0, out := fun _ => none, com := 0 }

/-- What can happen (`docs/asyncprocessing.md:171-200,243-282`, `streams/partition_worker.go:235-263`). -/
inductive Act where
  /-- `handleEvent` (`docs/asyncprocessing.md:172-179`, `streams/async_scheduler.go:231-243`) -/
  | handle
  /-- `migrate` (`docs/asyncprocessing.md:181-185`, `streams/async_scheduler.go:78-90`) -/
  | read (e : Nat)
  /-- `finalizeEvent`, `finalizeMigration` (`docs/asyncprocessing.md:188-200,260-274`, `streams/partition_worker.go:258-263`) -/
  | fin (e : Nat)
  /-- `writeToDB` (`docs/asyncprocessing.md:276-278`, `streams/async_scheduler.go:78-90`) -/
  | write (e : Nat)
  /-- a transaction is committed: the watermark moves over events that are complete (`streams/eos_producer.go:336-392`) -/
  | commit (w : Nat)
  /-- the process ends at any moment, another one fills its store from the change log and begins at the watermark (`streams/partition_worker.go:205-222`) -/
  | crash
  deriving DecidableEq, Repr

/-- All events of the process that come before, with the same key, are as far as that (`streams/async_scheduler.go:78-92`, by C16 and C17). -/
def ahead {V D : Type} (a : App V D) (s : St V D) (e m : Nat) : Bool := (List.range e).all fun e' => !(decide (s.base ≤ e') && a.key e' == a.key e) || decide (m ≤ s.ph e')

/-- The event is complete: its last finalizer has returned `Complete` (`docs/asyncprocessing.md:199,281`). The last finalizer of Example 4 does nothing, it is taken together with the write (`streams/partition_worker.go:258-263`). -/
def App.last {V D : Type} (a : App V D) : Nat := if a.dual then 4 else 3

/-- What the change log gives for a key, of the events before `m`: the last change (`streams/state_store_consumer.go:165-184`, C13). -/
def rebuilt {V : Type} (key : Nat → Nat) (out : Nat → Option V) (k : Nat) : Nat → Option V
  | 0 => none
  | m + 1 => if key m = k then out m else rebuilt key out k m

/-- What the finalizer puts into the store (`docs/asyncprocessing.md:188-200`, finalizer of `streams/async_scheduler.go:35-37`). -/
def final {V D : Type} (a : App V D) (s : St V D) (e : Nat) : Option V :=
  let old := s.store (a.key e)
  a.upd (if !s.mig e && old.isNone then some (a.seed (s.res e)) else old) e

/-- The step function; places at `Act` (`docs/asyncprocessing.md:171-200,243-282`, `streams/partition_worker.go:235-263`). -/
def step {V D : Type} (a : App V D) (s : St V D) : Act → Option (St V D)
  | .handle => some { s with n := s.n + 1, ph := put s.ph s.n 1, mig := put s.mig s.n (s.store (a.key s.n)).isSome }
  | .read e =>
    if s.base ≤ e ∧ e < s.n ∧ s.ph e = 1 ∧ ahead a s e 2 = true then
      some { s with ph := put s.ph e 2, res := if s.mig e then s.res else put s.res e (s.ext (a.key e)) }
    else none
  | .fin e =>
    if s.base ≤ e ∧ e < s.n ∧ s.ph e = 2 ∧ ahead a s e 3 = true then
      some { s with ph := put s.ph e 3, store := put s.store (a.key e) (final a s e), out := put s.out e (final a s e) }
    else none
  | .write e =>
    if a.dual = true ∧ s.base ≤ e ∧ e < s.n ∧ s.ph e = 3 ∧ ahead a s e 4 = true then
      some { s with ph := put s.ph e 4, ext := put s.ext (a.key e) (a.wr (s.ext (a.key e)) e) }
    else none
  | .commit w =>
    if s.com ≤ w ∧ w ≤ s.n ∧ (List.range w).all (fun e => decide (e < s.base) || decide (a.last ≤ s.ph e)) = true then
      some { s with com := w }
    else none
  | .crash => some { s with base := s.com, n := s.com, ph := fun _ => 0, store := fun k => rebuilt a.key s.out k s.com }

/-- Several steps (same places, `streams/partition_worker.go:235-263`). -/
def run {V D : Type} (a : App V D) (s : St V D) : List Act → Option (St V D)
  | [] => some s
  | x :: xs => (step a s x).bind fun s' => run a s' xs

/-- The reachable states (same places, `streams/partition_worker.go:235-263`). -/
inductive Reach {V D : Type} (a : App V D) (ext0 : Nat → D) : St V D → Prop where
  | init : Reach a ext0 (St.init ext0)
  | step {s s' : St V D} (x : Act) : Reach a ext0 s → step a s x = some s' → Reach a ext0 s'

end Verif.Migrate
