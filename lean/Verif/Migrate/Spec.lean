import Verif.Migrate.Model
/-
What C117 is about: one process that handles the events one after the other, and takes what the database had at the beginning when it meets a key for the first time.
-/
namespace Verif.Migrate

/-- The value of key `k` after the events before `m`, one after the other. -/
def seqVal {V D : Type} (a : App V D) (ext0 : Nat → D) (k : Nat) : Nat → Option V
  | 0 => none
  | m + 1 =>
    if a.key m = k then
      match seqVal a ext0 k m with
      | none => a.upd (some (a.seed (ext0 k))) m
      | some v => a.upd (some v) m
    else seqVal a ext0 k m

/-- The database after the writes of the events before `m`. -/
def seqExt {V D : Type} (a : App V D) (ext0 : Nat → D) (k : Nat) : Nat → D
  | 0 => ext0 k
  | m + 1 => if a.key m = k then a.wr (seqExt a ext0 k m) m else seqExt a ext0 k m

/-- The application never deletes. -/
def NoDelete {V D : Type} (a : App V D) : Prop := ∀ v e, (a.upd (some v) e).isSome = true

/-- A step that is not a crash after a write to the database for a key that the committed store does not have. -/
def CarefulStep {V D : Type} (a : App V D) (ext0 : Nat → D) (s : St V D) : Act → Prop
  | .crash => ∀ k, rebuilt a.key s.out k s.com = none → s.ext k = ext0 k
  | _ => True

/-- Executions with such steps only. -/
inductive Careful {V D : Type} (a : App V D) (ext0 : Nat → D) : St V D → Prop where
  | init : Careful a ext0 (St.init ext0)
  | step {s s' : St V D} (x : Act) : Careful a ext0 s → CarefulStep a ext0 s x → step a s x = some s' → Careful a ext0 s'

/-- Executions without crashes. -/
inductive Alive {V D : Type} (a : App V D) (ext0 : Nat → D) : St V D → Prop where
  | init : Alive a ext0 (St.init ext0)
  | step {s s' : St V D} (x : Act) : Alive a ext0 s → x ≠ .crash → step a s x = some s' → Alive a ext0 s'

end Verif.Migrate
