import Verif.Retry.Model
/-
What C116 is about: where the write of an event is, and in what order the database gets the writes of a key.
-/
namespace Verif.Retry

/-- How often the write of event `e` is under way: in the batcher and not successful so far. -/
def underway (s : St) (e : Nat) : Nat := s.jobs.countP fun j => j.item == e && !(j.res == some true)

/-- The write of every event that was handled is at exactly one place: in the database, in the store as an error record, or under way; and there is nothing else at these places. -/
def Kept (s : St) : Prop := ∀ e, s.db.count e + s.errs.count e + underway s e = if e < s.n then 1 else 0

/-- The database got the writes of each key in the order of the events. -/
def InOrder (key : Nat → Nat) (s : St) : Prop := ∀ (i j : Nat) (a b : Nat), i < j → s.db[i]? = some a → s.db[j]? = some b → key a = key b → a < b

/-- What can come after a state. -/
def Later (key : Nat → Nat) (s s' : St) : Prop := ∃ xs, run key s xs = some s'

/-- Nothing is left to be done. -/
def Settled (s : St) : Prop := s.jobs = [] ∧ s.errs = []

end Verif.Retry
