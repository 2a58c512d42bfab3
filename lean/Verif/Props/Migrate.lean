import Verif.Migrate.Proofs
/-
C117: the documented migration from a database computes what sequential processing computes.
-/
namespace Verif.Props.Migrate
open Verif.Migrate
variable {V D : Type}

/-- **C117** (what is missing: applications that delete, see `C117_violated_deleted`). Example 3, without the second stage: in every execution, with crashes at any moment, any keys, any contents of the database and any interleaving, what is
committed for every event is what one process computes that handles the events one after the other, and so is what a new process finds in its store. -/
theorem C117_single_partial (a : App V D) (ext0 : Nat → D) (hd : NoDelete a) (h1 : a.dual = false) (s : St V D) (hs : Reach a ext0 s) :
    (∀ e, e < s.com → s.out e = seqVal a ext0 (a.key e) (e + 1)) ∧ ∀ k, rebuilt a.key s.out k s.com = seqVal a ext0 k s.com :=
  have I := vi_careful hd (careful_of_single h1 hs)
  ⟨I.oc, fun _ => rebuilt_seq s.com I.oc⟩

/-- **C117** (what is missing: applications that delete, and crashes between the write of a new key to the database and the commit, see `C117_violated_crash`). Both examples: the same, in executions without such a crash. -/
theorem C117_careful_partial (a : App V D) (ext0 : Nat → D) (hd : NoDelete a) (s : St V D) (hs : Careful a ext0 s) :
    (∀ e, e < s.com → s.out e = seqVal a ext0 (a.key e) (e + 1)) ∧ ∀ k, rebuilt a.key s.out k s.com = seqVal a ext0 k s.com :=
  have I := vi_careful hd hs
  ⟨I.oc, fun _ => rebuilt_seq s.com I.oc⟩

/-- **C117**. In such executions, when the first stage of all events of a key is done, the store has for the key what one process would have. -/
theorem C117_store (a : App V D) (ext0 : Nat → D) (hd : NoDelete a) (s : St V D) (hs : Careful a ext0 s) (k : Nat) (hk : ∀ e, s.base ≤ e → e < s.n → a.key e = k → 3 ≤ s.ph e) : s.store k = seqVal a ext0 k s.n := by
  have I := vi_careful hd hs
  exact I.st k s.n (Nat.le_trans I.bc I.cn) (Nat.le_refl _) hk fun e h1 h2 => by omega

/-- **C117**. Without crashes, when all events of a key are complete, store and database both have for the key what one process computes; this holds for applications that delete, too, as far as the database is concerned. -/
theorem C117_both (a : App V D) (ext0 : Nat → D) (s : St V D) (hs : Alive a ext0 s) (k : Nat) (hk : ∀ e, e < s.n → a.key e = k → 4 ≤ s.ph e) :
    s.ext k = seqExt a ext0 k s.n ∧ (NoDelete a → s.store k = seqVal a ext0 k s.n) := by
  have E := ei_alive hs
  exact ⟨E.et k s.n (Nat.le_refl _) hk fun e h1 h2 => by omega, fun hd => C117_store a ext0 hd s (careful_of_alive hs) k fun e _ h2 h3 => by have := hk e h2 h3; omega⟩

/-- A state that is reached by a run is reachable. -/
theorem reach_run {a : App V D} {ext0 : Nat → D} {s s' : St V D} (hs : Reach a ext0 s) : ∀ xs, run a s xs = some s' → Reach a ext0 s' := by
  intro xs
  induction xs generalizing s with
  | nil => intro h; cases h; exact hs
  | cons x xs ih =>
    intro h
    simp only [run] at h
    cases hx : step a s x with
    | none => rw [hx] at h; cases h
    | some s1 => rw [hx] at h; exact ih (.step x hs hx) h

/-- The same without crashes. -/
theorem alive_run {a : App V D} {ext0 : Nat → D} {s s' : St V D} (hs : Alive a ext0 s) : ∀ xs, .crash ∉ xs → run a s xs = some s' → Alive a ext0 s' := by
  intro xs
  induction xs generalizing s with
  | nil => intro _ h; cases h; exact hs
  | cons x xs ih =>
    intro hc h
    simp only [run] at h
    cases hx : step a s x with
    | none => rw [hx] at h; cases h
    | some s1 => rw [hx] at h; exact ih (.step x hs (fun he => hc (by rw [he]; exact List.mem_cons_self)) hx) (fun hm => hc (List.mem_cons_of_mem _ hm)) h

/-- A counter per key, kept in the database and in the store: each event adds one. -/
def counter (dual : Bool) : App Nat Nat := { key := fun e => e % 2, seed := id, upd := fun v _ => some (v.getD 0 + 1), wr := fun d _ => d + 1, dual := dual }

theorem counter_noDelete (dual : Bool) : NoDelete (counter dual) := fun _ _ => rfl

/-- A cell that event 1 deletes and all others add one to. -/
def cell : App Nat Nat := { key := fun _ => 0, seed := id, upd := fun v e => if e = 1 then none else some (v.getD 0 + 1), wr := fun d _ => d, dual := false }

/-- **C117 violated**: Example 4, nothing is deleted. The process ends after the first event of a key was written to the database and before its transaction is committed. The next process finds no such key in its store, reads the database, which
has the effect of the event already, and applies the event again: what is committed has it twice, and so has the database. -/
theorem C117_violated_crash : ∃ s, Reach (counter true) (fun _ => 10) s ∧ s.com = 1 ∧ s.out 0 = some 12 ∧ seqVal (counter true) (fun _ => 10) 0 1 = some 11 ∧ s.ext 0 = 12 ∧ seqExt (counter true) (fun _ => 10) 0 1 = 11 := by
  have h : ∃ s, run (counter true) (St.init fun _ => 10) [.handle, .read 0, .fin 0, .write 0, .crash, .handle, .read 0, .fin 0, .write 0, .commit 1] = some s ∧ s.com = 1 ∧ s.out 0 = some 12 ∧ s.ext 0 = 12 := ⟨_, rfl, rfl, rfl, rfl⟩
  obtain ⟨s, h1, h2, h3, h4⟩ := h
  exact ⟨s, reach_run .init _ h1, h2, h3, rfl, h4, rfl⟩

/-- **C117 violated**: Example 3 with an event that deletes, without crashes. The handler of the next event sees the key before the deletion is applied; so nothing is read from the database, and the finalizer begins with nothing, where
one process would have read the database again. -/
theorem C117_violated_deleted : ∃ s, Alive cell (fun _ => 10) s ∧ s.com = 3 ∧ s.out 2 = some 1 ∧ seqVal cell (fun _ => 10) 0 3 = some 11 := by
  have h : ∃ s, run cell (St.init fun _ => 10) [.handle, .read 0, .fin 0, .handle, .handle, .read 1, .read 2, .fin 1, .fin 2, .commit 3] = some s ∧ s.com = 3 ∧ s.out 2 = some 1 := ⟨_, rfl, rfl, rfl⟩
  obtain ⟨s, h1, h2, h3⟩ := h
  exact ⟨s, alive_run .init _ (by decide) h1, h2, h3, rfl⟩

/-- The hypotheses are met: Example 3 with three events of two keys, the second of key 0 handled before the first one is finalized, a crash with a part committed. -/
example : ∃ s, Reach (counter false) (fun k => 10 * k) s ∧ s.com = 4 ∧ s.base = 1 ∧ s.out 2 = some 2 ∧ s.out 3 = some 12 ∧ seqVal (counter false) (fun k => 10 * k) 1 4 = some 12 := by
  have h : ∃ s, run (counter false) (St.init fun k => 10 * k)
      [.handle, .handle, .handle, .read 0, .read 2, .read 1, .fin 0, .fin 2, .commit 1, .crash, .handle, .handle, .handle, .read 1, .read 3, .read 2, .fin 2, .fin 1, .fin 3, .commit 4] = some s ∧
      s.com = 4 ∧ s.base = 1 ∧ s.out 2 = some 2 ∧ s.out 3 = some 12 := ⟨_, rfl, rfl, rfl, rfl, rfl⟩
  obtain ⟨s, h1, h2, h3, h4, h5⟩ := h
  exact ⟨s, reach_run .init _ h1, h2, h3, h4, h5, rfl⟩

/-- The hypotheses are met: Example 4 without crashes; the second event of the key reads the database after the first one was written to it, and all is complete. -/
example : ∃ s, Alive (counter true) (fun _ => 10) s ∧ s.n = 3 ∧ s.store 0 = some 12 ∧ s.ext 0 = 12 ∧ (∀ e, e < s.n → (counter true).key e = 0 → 4 ≤ s.ph e) := by
  have h : ∃ s, run (counter true) (St.init fun _ => 10) [.handle, .handle, .handle, .read 0, .fin 0, .write 0, .read 2, .fin 2, .write 2, .commit 1] = some s ∧
      s.n = 3 ∧ s.store 0 = some 12 ∧ s.ext 0 = 12 ∧ s.ph 0 = 4 ∧ s.ph 2 = 4 := ⟨_, rfl, rfl, rfl, rfl, rfl, rfl⟩
  obtain ⟨s, h1, h2, h3, h4, h5, h6⟩ := h
  refine ⟨s, alive_run .init _ (by decide) h1, h2, h3, h4, ?_⟩
  intro e he hk
  rw [h2] at he
  match e, he with
  | 0, _ => omega
  | 1, _ => simp [counter] at hk
  | 2, _ => omega

end Verif.Props.Migrate
