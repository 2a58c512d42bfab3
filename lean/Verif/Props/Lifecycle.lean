import Verif.Lifecycle.Proofs
/-
Properties C14 and C67 (`streams/partitioned_store.go`, `streams/source_consumer.go`).
-/
namespace Verif.Lifecycle

/-- C14. Whatever the sequence of operations: between two creations of a store for the same partition, the first one was revoked. -/
theorem C14_created_once (ops : List Op) (a b c : List Ev) (st st' p : Nat)
    (h : (run LC.init ops).trace = a ++ .created st p :: (b ++ .created st' p :: c)) : Ev.revoked st ∈ b := by
  have ho := (inv_run ops).once
  rw [h] at ho
  have e : a ++ Ev.created st p :: (b ++ Ev.created st' p :: c) = ((a ++ Ev.created st p :: b) ++ [Ev.created st' p]) ++ c := by simp
  rw [e] at ho
  have h1 := once_prefix ho
  by_contra hn
  have h2 := once_created h1
  rw [serves_until (once_prefix h1) hn] at h2
  cases h2

/-- C14. No two partitions share a store, and no store is created twice. -/
theorem C14_own_store (ops : List Op) : (createdIds (run LC.init ops).trace).Nodup := (inv_run ops).creNodup

/-- C14. `Revoked` is called at most once on each store. -/
theorem C14_revoked_once (ops : List Op) (st : Nat) : (run LC.init ops).trace.count (.revoked st) ≤ 1 := by
  have h := List.nodup_iff_count_le_one.1 (inv_run ops).revNodup st
  refine Nat.le_trans (Nat.le_of_eq ?_) h
  generalize (run LC.init ops).trace = t
  induction t with
  | nil => rfl
  | cons e t ih =>
    cases e with
    | revoked x =>
      simp only [revokedIds, List.filterMap_cons, List.count_cons] at ih ⊢
      rw [ih]
      by_cases hx : x = st
      · simp [hx]
      · simp [hx]
    | created _ _ => simp only [revokedIds, List.filterMap_cons, List.count_cons] at ih ⊢; rw [ih]; simp
    | handled _ _ => simp only [revokedIds, List.filterMap_cons, List.count_cons] at ih ⊢; rw [ih]; simp
    | applied _ _ => simp only [revokedIds, List.filterMap_cons, List.count_cons] at ih ⊢; rw [ih]; simp

/-- C14. When partitions are revoked, `Revoked` has been called on the store of each of them, and none serves them. -/
theorem C14_revoked_called (ops : List Op) (ps : List Nat) (p st : Nat) (hp : p ∈ ps) (hc : current (run LC.init ops).trace p = some st) :
    Ev.revoked st ∈ (run LC.init (ops ++ [.revoke ps])).trace ∧ current (run LC.init (ops ++ [.revoke ps])).trace p = none ∧
      (run LC.init (ops ++ [.revoke ps])).workers p = none := by
  have hrun : run LC.init (ops ++ [.revoke ps]) = revoke (run LC.init ops) ps := by simp [run, step]
  have hI := inv_run (ops ++ [.revoke ps])
  rw [hI.cur p]
  rw [(inv_run ops).cur p] at hc
  rw [hrun]
  generalize run LC.init ops = s at hc
  clear hrun hI ops
  unfold revoke
  have mono : ∀ (ps : List Nat) (s : LC), (∀ e ∈ s.trace, e ∈ (ps.foldl revoke1 s).trace) ∧
      (s.data p = none → (ps.foldl revoke1 s).data p = none) ∧ (s.workers p = none → (ps.foldl revoke1 s).workers p = none) := by
    intro ps
    induction ps with
    | nil => intro s; exact ⟨fun _ h => h, fun h => h, fun h => h⟩
    | cons q ps ih =>
      intro s
      obtain ⟨i1, i2, i3⟩ := ih (revoke1 s q)
      refine ⟨fun e he => i1 e ?_, fun h => i2 ?_, fun h => i3 ?_⟩
      · unfold revoke1 storeRevoke; split
        · exact List.mem_append.2 (.inl he)
        · exact he
      · obtain ⟨_, _, _, _, h5, h6⟩ := storeRevoke_other { s with workers := put s.workers q none } q
        unfold revoke1
        by_cases e : p = q
        · subst e; exact h6
        · rw [h5 p e]; exact h
      · unfold revoke1
        rw [(storeRevoke_other _ q).2.1]
        by_cases e : p = q
        · subst e; exact put_same _ _ _
        · exact (put_ne _ _ e).trans h
  induction ps generalizing s with
  | nil => cases hp
  | cons q ps ih =>
    by_cases e : p = q
    · subst e
      obtain ⟨m1, m2, m3⟩ := mono ps (revoke1 s p)
      refine ⟨m1 _ ?_, m2 ?_, m3 ?_⟩
      · unfold revoke1 storeRevoke
        dsimp only
        rw [hc]
        simp
      · exact (storeRevoke_other _ p).2.2.2.2.2
      · unfold revoke1
        rw [(storeRevoke_other _ p).2.1]
        exact put_same _ _ _
    · refine ih ((List.mem_cons.1 hp).resolve_left e) (revoke1 s q) ?_
      unfold revoke1
      rw [(storeRevoke_other _ q).2.2.2.2.1 p e]
      exact hc

/-- C14. The worker to which the events of an assigned partition go uses the store that serves the partition. -/
theorem C14_events (ops : List Op) (p w : Nat) (h : (run LC.init ops).workers p = some w) :
    ∃ st, (run LC.init (ops ++ [.event w])).trace = (run LC.init ops).trace ++ [.handled p st] ∧
      current (run LC.init ops).trace p = some st := by
  obtain ⟨st, h1, h2⟩ := (inv_run ops).work p w h
  refine ⟨st, ?_, by rw [(inv_run ops).cur p]; exact h2⟩
  have : run LC.init (ops ++ [.event w]) = step (run LC.init ops) (.event w) := by simp [run]
  rw [this]
  simp only [step, h1]

/-- C14, partial: the change log of an assigned partition goes to the store that serves it, for every sequence of operations in which
a partition is prepared only while it is not assigned and revoked only while it is not being prepared.
Missing: the code does not enforce that order, see `C14_violated_split`. -/
theorem C14_changes_partial {s : LC} (h : Reach s) (p w : Nat) (hw : s.workers p = some w) :
    ∃ st, s.all[w]? = some ⟨p, st⟩ ∧ current s.trace p = some st ∧ (p, st) ∈ s.feeds := by
  have F := fed_reach h
  obtain ⟨st, h1, h2⟩ := F.inv.work p w hw
  exact ⟨st, h1, by rw [F.inv.cur p]; exact h2, F.work p w _ hw h1⟩

/-- The hypotheses are met: two partitions, one of them prepared first, revoked and assigned again. -/
example : Reach (run LC.init [.prepare 0, .assign [0, 1], .revoke [1], .assign [1]]) ∧
    (run LC.init [.prepare 0, .assign [0, 1], .revoke [1], .assign [1]]).workers 1 = some 2 := by
  refine ⟨?_, by decide⟩
  have h1 := Reach.step (.prepare 0) .init rfl
  have h2 := Reach.step (.assign [0, 1]) h1 trivial
  have h3 := Reach.step (.revoke [1]) h2 (by intro p hp; rw [List.mem_singleton.1 hp]; decide)
  exact Reach.step (.assign [1]) h3 trivial

/-- C14 is violated: a preparation that is under way when the partition is revoked is taken over by the next assignment. Its change
log goes to the old store and never to the one with which the worker handles events. -/
theorem C14_violated_split :
    let s := run LC.init [.assign [0], .prepare 0, .revoke [0], .assign [0]]
    s.workers 0 = some 1 ∧ s.all[1]? = some ⟨0, 1⟩ ∧ ∀ f ∈ s.feeds, f = (0, 0) := by
  decide

/-- C14 is violated: a preparation of a partition that is assigned starts to apply the change log again, from its start, to the store
with which the worker is handling events. -/
theorem C14_violated_refill :
    let s := run LC.init [.assign [0], .event 0, .prepare 0, .apply 1, .event 0]
    s.trace = [.created 0 0, .handled 0 0, .applied 0 0, .handled 0 0] ∧ s.workers 0 = some 0 := by
  decide

/-- C14 is violated: a preparation that is forgotten leaves its store behind. `Revoked` is not called, and the next assignment, of any
later time, uses it again with what it contains. -/
theorem C14_violated_forgotten :
    let s := run LC.init [.prepare 0, .apply 0, .forget 0, .assign [0], .apply 1]
    s.trace = [.created 0 0, .applied 0 0, .applied 0 0] ∧ s.all[0]? = some ⟨0, 0⟩ := by
  decide

/-! ### C67 — no use of a store after `Revoked` -/

/-- C67, partial: the store with which the events of an assigned partition are handled has not been revoked.
Missing: events that a worker still handles after the revocation, see `C67_violated_worker`. -/
theorem C67_assigned_partial (ops : List Op) (p w : Nat) (h : (run LC.init ops).workers p = some w) :
    ∃ st, (run LC.init ops).all[w]? = some ⟨p, st⟩ ∧ Ev.revoked st ∉ (run LC.init ops).trace := by
  obtain ⟨st, h1, h2⟩ := (inv_run ops).work p w h
  refine ⟨st, h1, fun hc => ?_⟩
  have : st ∈ revokedIds (run LC.init ops).trace := List.mem_filterMap.2 ⟨_, hc, rfl⟩
  exact ((inv_run ops).rev st this).2 p h2

example : (run LC.init [.assign [0, 1], .revoke [0], .assign [0]]).workers 0 = some 2 := by decide

/-- C67 is violated: `revokePartitions` calls `Revoked` at once, without waiting for the worker, which may be handling an event. -/
theorem C67_violated_worker : (run LC.init [.assign [0], .event 0, .revoke [0], .event 0]).trace =
    [.created 0 0, .handled 0 0, .revoked 0, .handled 0 0] := by
  decide

/-- C67 is violated: if the store was still being filled, the goroutine `populate` goes on after `Revoked`. -/
theorem C67_violated_populate : (run LC.init [.assign [0], .apply 0, .revoke [0], .apply 0]).trace =
    [.created 0 0, .applied 0 0, .revoked 0, .applied 0 0] := by
  decide

end Verif.Lifecycle
