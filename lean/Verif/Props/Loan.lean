import Verif.Loan.Order
/-
C120: the objects of records are handed on and used again without data races.
-/
namespace Verif.Props.Loan
open Verif.Loan

/-- **C120**. In every execution, of any number of goroutines, objects, nodes and batches: of two accesses to the same object, or to the free list of the pool, the earlier one happens before the later one, also if both only read, and also if the object was released
and taken again between them. -/
theorem C120_in_order (s : St) (hs : Reach s) (i j : Nat) (g g' : Gor) (L : Loc) (w w' : Bool) (hij : i < j) (hi : s.tr[i]? = some (.acc g L w)) (hj : s.tr[j]? = some (.acc g' L w')) : Before s.tr i j := by
  have M := mi_reach hs
  cases L with
  | free => exact M.lo.2 i j _ _ hij hi hj (by simp [Op.at]) (by simp [Op.at])
  | obj r => exact (M.ob r (M.fr _ (List.mem_of_getElem? hi) r (by simp [Op.at]))).2 i j _ _ hij hi hj (by simp [Op.at]) (by simp [Op.at])

/-- **C120**. In every execution, no two accesses are a data race. -/
theorem C120_race_free (s : St) (hs : Reach s) (i j : Nat) : ¬ RaceAt s.tr i j := by
  intro ⟨a, b, hi, hj, hne, hc, h1, h2⟩
  cases a <;> cases b <;> try exact hc.elim
  obtain ⟨rfl, _⟩ := hc
  rcases Nat.lt_or_gt_of_ne hne with h | h
  · exact h1 (C120_in_order s hs i j _ _ _ _ _ h hi hj)
  · exact h2 (C120_in_order s hs j i _ _ _ _ _ h hj hi)

/-- **C120**. In every execution messages are received after they were sent, and sent once; so the order used above is that of the Go memory model. -/
theorem C120_orderly (s : St) (hs : Reach s) : Orderly s.tr := (ni_reach hs).ord

/-- An object is filled by a worker, waits in the buffer of a node, is flushed by another goroutine, completed and released by the client, and taken again by another worker for a batch of two; the other object of that batch is used again with a `Producer`. -/
def acts : List Act :=
  [.make (.app 0), .use 0, .txn 0 3 false, .flush 0 (.app 5), .done 0 0, .use 0, .release 0, .borrow (.app 1) 0, .use 0, .make (.app 1), .batch (.app 1) [0, 1], .bprod 0, .bprod 1, .bdone 0 0, .bdone 1 2, .call 0, .back 0, .back 1, .use 0, .release 0, .use 1,
    .solo 1, .done 1 0, .give 1, .get 1 (.app 4), .use 1, .release 1, .borrow (.app 0) 0, .use 0]

example : ∃ s, run St.init acts = some s ∧ Reach s ∧ s.tr.length = 60 ∧ s.tr[4]? = some (.acc (.app 0) (.obj 0) true) ∧ s.tr[22]? = some (.acc (.app 1) (.obj 0) true) ∧ s.tr[32]? = some (.acc (.cli 0) (.obj 0) true) ∧ s.tr[35]? = some (.acc (.cli 2) (.obj 1) true) ∧
    s.tr[44]? = some (.acc (.app 1) (.obj 1) true) ∧ Before s.tr 4 22 ∧ Before s.tr 22 32 ∧ Before s.tr 35 44 := by
  have h : ∃ s, run St.init acts = some s ∧ s.tr.length = 60 ∧ s.tr[4]? = some (.acc (.app 0) (.obj 0) true) ∧ s.tr[22]? = some (.acc (.app 1) (.obj 0) true) ∧ s.tr[32]? = some (.acc (.cli 0) (.obj 0) true) ∧ s.tr[35]? = some (.acc (.cli 2) (.obj 1) true) ∧
      s.tr[44]? = some (.acc (.app 1) (.obj 1) true) := ⟨_, rfl, by decide +kernel, by decide +kernel, by decide +kernel, by decide +kernel, by decide +kernel, by decide +kernel⟩
  obtain ⟨s, h1, h2, h3, h4, h5, h6, h7⟩ := h
  have hr := reach_run .init acts h1
  exact ⟨s, h1, hr, h2, h3, h4, h5, h6, h7, C120_in_order s hr 4 22 _ _ _ _ _ (by omega) h3 h4, C120_in_order s hr 22 32 _ _ _ _ _ (by omega) h4 h5, C120_in_order s hr 35 44 _ _ _ _ _ (by omega) h6 h7⟩

/-- The rule of the documentation that records must not be used after `Forward` is needed for C120, even for reading only, and even before the object is released: it would be a data race with the callback of the client. -/
theorem C120_condition_needed : ∃ s, Reach s ∧ s.rst 0 = .own (.cli 0) ∧ ∃ i j, RaceAt (s.tr ++ [.acc (.app 0) (.obj 0) false]) i j := by
  have h : ∃ s, run St.init [.make (.app 0), .txn 0 0 true, .done 0 0] = some s ∧ s.rst 0 = .own (.cli 0) ∧ s.tr.length = 10 ∧ s.tr[9]? = some (.acc (.cli 0) (.obj 0) true) := ⟨_, rfl, by decide +kernel, by decide +kernel, by decide +kernel⟩
  obtain ⟨s, h1, h2, h3, h4⟩ := h
  have e1 : (s.tr ++ [Op.acc (.app 0) (.obj 0) false])[9]? = some (.acc (.cli 0) (.obj 0) true) := get_left h4
  have e2 : (s.tr ++ [Op.acc (.app 0) (.obj 0) false])[10]? = some (.acc (.app 0) (.obj 0) false) := by rw [← h3]; simp
  refine ⟨s, reach_run .init _ h1, h2, 9, 10, _, _, e1, e2, by omega, ⟨rfl, .inl rfl⟩, not_before e1 (fun q o hq ho => ?_) 10, fun h => by have := h.lt; omega⟩
  have : q = 10 := by
    have := lt_of_get ho
    simp only [List.length_append, List.length_singleton, h3] at this
    omega
  subst this
  rw [e2] at ho
  cases ho
  simp [Op.gor]

end Verif.Props.Loan
