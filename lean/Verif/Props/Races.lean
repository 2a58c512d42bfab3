import Verif.Races.Proofs
/-
C92: shared fields are not accessed by two goroutines at the same time, unless both read or both use atomic operations.
-/
namespace Verif.Races

/-! ### Specification, in the words of the Go memory model -/

/-- Goroutine `t` is about to access field `f` in way `a`. -/
def AboutTo (t : Thread) (f : Field) (a : Acc) : Prop := ∃ is, t.rest = .acc f a :: is

/-- A data race: two goroutines can access a field next, at least one of them writes, and at least one of them without an atomic operation (an atomic operation counts as a write). -/
def Race (ts : List Thread) (f : Field) : Prop :=
  ∃ (i j : Nat) (t u : Thread) (a b : Acc), i ≠ j ∧ ts[i]? = some t ∧ ts[j]? = some u ∧ AboutTo t f a ∧ AboutTo u f b ∧ (a ≠ .read ∨ b ≠ .read) ∧ (a ≠ .atomic ∨ b ≠ .atomic)

/-- The fields that are not protected. -/
def unprotected : Field → Bool
  | .buffer | .counts | .channel | .highestOffset | .produceCnt _ => true
  | _ => false

/-- **C92** (partial: for all fields but the unprotected ones): with any number of goroutines that run any of the functions in any interleaving, no field has a data race. -/
theorem C92_no_race_partial (ts : List Thread) (h : Reach ts) (f : Field) (hf : unprotected f = false) : ¬ Race ts f := by
  rintro ⟨i, j, t, u, a, b, hij, hi, hj, ⟨is, ht⟩, ⟨js, hu⟩, h1, h2⟩
  have inv := inv_reach h
  have o1 := inv.obeys t (List.mem_of_getElem? hi)
  have o2 := inv.obeys u (List.mem_of_getElem? hj)
  rw [ht] at o1; rw [hu] at o2
  obtain ⟨l, x, y, p, q, r⟩ := rules_exclude f (by cases f <;> simp_all [unprotected]) a b ⟨by tauto, by tauto⟩ _ _ o1.1 o2.1
  rcases r with rfl | rfl
  · exact inv.excl i j t u hi hj hij l y p q
  · exact inv.excl j i u t hj hi (Ne.symm hij) l x q p

/-- Many goroutines: two assignments wait for each other, a worker is about to read `workers` under the lock. -/
example : ∃ ts, Reach ts ∧ ts.length = 3 ∧ ∃ t ∈ ts, AboutTo t .workers .read ∧ t.held = [(.worker, true)] := by
  refine ⟨_, ⟨[.start (.assign [.fresh, .prepared]), .start (.assign [.kept]), .start .receive, .go 2], rfl⟩, rfl, ⟨[(.worker, true)], [.acc .workers .read, .unlock .worker]⟩, by decide +kernel, ⟨_, rfl⟩, rfl⟩

/-- **C92**: no lock is left behind: a goroutine that has done everything holds no lock. -/
theorem C92_all_released (ts : List Thread) (h : Reach ts) (t : Thread) (ht : t ∈ ts) (hd : t.rest = []) : t.held = [] := by
  have := (inv_reach h).released t ht
  rw [hd] at this
  exact this

/-- A commit with two other nodes and two partitions, from beginning to end. -/
example : ∃ ts, Reach ts ∧ ∃ t ∈ ts, t.rest = [] := by
  refine ⟨[⟨[], []⟩], ⟨.start (.commit 0 [1, 2] [1, 2] true) :: List.replicate (prog (.commit 0 [1, 2] [1, 2] true)).length (.go 0), ?_⟩, _, List.mem_singleton.2 rfl, rfl⟩
  decide +kernel

/-- **C92**: a lock is held exclusively by at most one goroutine, and then nobody has it for reading. -/
theorem C92_locks_exclude (ts : List Thread) (h : Reach ts) (i j : Nat) (t u : Thread) (hi : ts[i]? = some t) (hj : ts[j]? = some u) (hij : i ≠ j) (l : Lock) (hl : (l, true) ∈ t.held) (b : Bool) :
    (l, b) ∉ u.held := (inv_reach h).excl i j t u hi hj hij l b hl

/-- Two commits of different nodes wait for each other at the token, two readers share `update`. -/
example : ∃ ts, Reach ts ∧ ∃ t ∈ ts, ∃ u ∈ ts, t ≠ u ∧ (Lock.update, false) ∈ t.held ∧ (Lock.update, false) ∈ u.held := by
  refine ⟨_, ⟨[.start (.schedule 0 true), .start (.work true)] ++ List.replicate 7 (.go 0) ++ List.replicate 6 (.go 1), rfl⟩, ⟨[(.update, false)], [.acc .channel .read, .runlock .update]⟩, by decide +kernel,
    ⟨[(.update, false)], [.runlock .update]⟩, by decide +kernel, by decide +kernel, by decide +kernel, by decide +kernel⟩

/-! ### The violations: each field, with two functions that the code runs in different goroutines -/

/-- **C92 violated**: `buffer` of a partition of the change log. The consumer of the change log sends to it without the lock (`state_store_consumer.go:63`), while `cancelPartition` closes and clears it. -/
theorem C92_violated_buffer : ∃ ts, Reach ts ∧ Race ts .buffer := by
  refine ⟨_, ⟨[.start (.consume true), .go 0, .start (.forget true), .go 1, .go 1, .go 1, .go 1, .go 1], rfl⟩, 0, 1, _, _, .read, .write, by decide, rfl, rfl, ⟨_, rfl⟩, ⟨_, rfl⟩, by decide, by decide⟩

/-- **C92 violated**: `populate` of a synchronisation that ends clears `buffer` without the lock, while a new preparation sets it. -/
theorem C92_violated_buffer_writes : ∃ ts, Reach ts ∧ ∃ (i j : Nat) (t u : Thread), i ≠ j ∧ ts[i]? = some t ∧ ts[j]? = some u ∧ AboutTo t .buffer .write ∧ AboutTo u .buffer .write := by
  refine ⟨_, ⟨[.start (.populate true 1)] ++ List.replicate 9 (.go 0) ++ [.start (.prepare false)] ++ List.replicate 9 (.go 1), rfl⟩, 0, 1, _, _, by decide, rfl, rfl, ⟨_, rfl⟩, ⟨_, rfl⟩⟩

/-- **C92 violated**: `count` and `byteCount` are reset by `prep` with plain writes (`state_store_consumer.go:132-133`), while the `populate` of an earlier preparation counts. -/
theorem C92_violated_counts : ∃ ts, Reach ts ∧ Race ts .counts := by
  refine ⟨_, ⟨[.start (.populate false 2), .go 0, .start (.prepare false)] ++ List.replicate 8 (.go 1), rfl⟩, 0, 1, _, _, .atomic, .write, by decide, rfl, rfl, ⟨_, rfl⟩, ⟨_, rfl⟩, by decide, by decide⟩

/-- **C92 violated**: `highestOffset` of a worker is written by the goroutine that handles events, while the goroutine that receives records compares with it. -/
theorem C92_violated_highestOffset : ∃ ts, Reach ts ∧ Race ts .highestOffset := by
  refine ⟨_, ⟨[.start .push, .start .handle], rfl⟩, 0, 1, _, _, .read, .write, by decide, rfl, rfl, ⟨_, rfl⟩, ⟨_, rfl⟩, by decide, by decide⟩

/-- **C92 violated**: `produceCnt` of every node: events increment it under `produceLock`, but with a plain operation, while the pool reads it with an atomic operation and without the lock. -/
theorem C92_violated_produceCnt (n : Nat) : ∃ ts, Reach ts ∧ Race ts (.produceCnt n) := by
  refine ⟨[⟨[(.produce n, true)], (prog (.produce n)).drop 2⟩, ⟨[], prog (.tryFlush n)⟩], ⟨[.start (.produce n), .go 0, .go 0, .start (.tryFlush n)], ?_⟩, 0, 1, _, _, .write, .atomic, by decide, rfl, rfl, ⟨_, rfl⟩, ⟨_, rfl⟩,
    by decide, by decide⟩
  simp [run, step, next, prog, within]

/-- **C92 violated**: `workerChannel`: `work` reads it without `updateRWLock`, while `SetMaxConcurrentKeys` replaces it. -/
theorem C92_violated_channel : ∃ ts, Reach ts ∧ Race ts .channel := by
  refine ⟨_, ⟨[.start (.work false), .start (.setMaxKeys true)] ++ List.replicate 6 (.go 1), rfl⟩, 0, 1, _, _, .read, .write, by decide, rfl, rfl, ⟨_, rfl⟩, ⟨_, rfl⟩, by decide, by decide⟩

end Verif.Races
