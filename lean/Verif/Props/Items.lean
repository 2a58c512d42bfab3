import Verif.Items.Order
/-
C118: the items of batches are handed from handlers to executions and back without data races.
-/
namespace Verif.Props.Items
open Verif.Items

/-- **C118**. In every execution, of any number of workers, batches, items, executors and timers: no two accesses to the fields of the batcher, the lists of an executor, the items or the fields of a batch are a data race. -/
theorem C118_race_free (s : St) (hs : Reach s) (i j : Nat) : ¬ RaceAt s.tr i j := by
  have key : ∀ (i j : Nat) (a b : Op), i < j → s.tr[i]? = some a → s.tr[j]? = some b → Conflict a b → Before s.tr i j := by
    intro i j a b hij hi hj hc
    have M := mi_reach hs
    cases a <;> cases b <;> try exact hc.elim
    rename_i g L w g' L' w'
    obtain ⟨rfl, hw⟩ := hc
    cases L with
    | locked => exact M.lo.2 i j _ _ hij hi hj (by simp [Op.at]) (by simp [Op.at])
    | slice x => exact (M.sl x).2 i j _ _ hij hi hj (by simp [Op.at]) (by simp [Op.at])
    | res k => exact (M.rs k (M.fr _ (List.mem_of_getElem? hi) k (.inl (by simp [Op.at])))).2 i j _ _ hij hi hj (by simp [Op.at]) (by simp [Op.at])
    | fixed k =>
      rcases hw with rfl | rfl
      · exact ((M.of k) i j _ _ hi hj ⟨g, rfl⟩ (by simp [Op.at])).resolve_left (by omega)
      · have := (M.of k) j i _ _ hj hi ⟨g', rfl⟩ (by simp [Op.at])
        rcases this with h | h
        · omega
        · have := h.lt; omega
    | list b =>
      refine M.l2 b i j _ _ hij hi hj (by simp [Op.at]) (by simp [Op.at]) ?_
      rcases hw with rfl | rfl
      · exact .inl ⟨g, rfl⟩
      · exact .inr ⟨g', rfl⟩
  intro ⟨a, b, hi, hj, hne, hc, h1, h2⟩
  rcases Nat.lt_or_gt_of_ne hne with h | h
  · exact h1 (key i j a b h hi hj hc)
  · refine h2 (key j i b a h hj hi ?_)
    cases a <;> cases b <;> try exact hc.elim
    exact ⟨hc.1.symm, hc.2.symm⟩

/-- **C118**. In every execution, of two accesses to the same executor list, to `Value`, `Err` and `UserData` of the same item, or to what the lock protects, the earlier one happens before the later one, also if both only read: one goroutine at a time has them. -/
theorem C118_in_order (s : St) (hs : Reach s) (i j : Nat) (g g' : Gor) (L : Loc) (w w' : Bool) (hL : L = .locked ∨ (∃ x, L = .slice x) ∨ ∃ k, L = .res k) (hij : i < j)
    (hi : s.tr[i]? = some (.acc g L w)) (hj : s.tr[j]? = some (.acc g' L w')) : Before s.tr i j := by
  have M := mi_reach hs
  rcases hL with rfl | ⟨x, rfl⟩ | ⟨k, rfl⟩
  · exact M.lo.2 i j _ _ hij hi hj (by simp [Op.at]) (by simp [Op.at])
  · exact (M.sl x).2 i j _ _ hij hi hj (by simp [Op.at]) (by simp [Op.at])
  · exact (M.rs k (M.fr _ (List.mem_of_getElem? hi) k (.inl (by simp [Op.at])))).2 i j _ _ hij hi hj (by simp [Op.at]) (by simp [Op.at])

/-- **C118**. In every execution messages are received after they were sent, and sent once; so the order used above is that of the Go memory model. -/
theorem C118_orderly (s : St) (hs : Reach s) : Orderly s.tr := (ni_reach hs).ord

/-- Two workers, two executors, a batch with items in both, a batch with a placeholder, an item that has to wait. -/
def acts : List Act :=
  [.batch 0, .item 0 false, .item 0 false, .batch 1, .item 1 true, .give 0, .give 1, .add 0 (some 0), .add 2 (some 0), .start (.timer 0) 0, .add 1 none, .begin 0, .exec 0 0, .complete 0 0, .complete 0 2, .look 0 0, .call 1, .finish 0,
    .flush 0 1 (some 1), .start (.run 0) 1, .begin 1, .exec 1 1, .complete 1 1, .call 0, .use 0 true, .use 1 true, .finish 1]

example : ∃ s, run St.init acts = some s ∧ Reach s ∧ s.tr.length = 83 ∧ Before s.tr 36 75 ∧ s.tr[36]? = some (.acc (.run 0) (.res 0) true) ∧ s.tr[75]? = some (.acc (.work 0) (.res 0) true) := by
  have h : ∃ s, run St.init acts = some s ∧ s.tr.length = 83 ∧ s.tr[36]? = some (.acc (.run 0) (.res 0) true) ∧ s.tr[75]? = some (.acc (.work 0) (.res 0) true) :=
    ⟨_, rfl, by decide +kernel, by decide +kernel, by decide +kernel⟩
  obtain ⟨s, h1, h2, h3, h4⟩ := h
  have hr := reach_run .init acts h1
  exact ⟨s, h1, hr, h2, C118_in_order s hr 36 75 _ _ _ _ _ (.inr (.inr ⟨0, rfl⟩)) (by omega) h3 h4, h3, h4⟩

/-- A batch with two items, in two executions; the second one sends the batch to its worker. -/
def actsTwo : List Act :=
  [.batch 0, .item 0 false, .item 0 false, .give 0, .add 0 (some 0), .start (.timer 0) 0, .add 1 (some 1), .start (.work 0) 1, .begin 0, .begin 1, .complete 0 0, .complete 1 1, .call 0]

/-- The condition of C118 that nothing is added to a batch after it was given to the batcher is needed, even in the callback, when all its items are completed: `completeItem` of an execution that was not the last one reads the length of the list of items
after it has counted, and nothing orders this before the `Add` of the callback. -/
theorem C118_condition_needed : ∃ s, Reach s ∧ s.bst 0 = .called ∧ s.left 0 = [] ∧ ∃ i j, RaceAt (s.tr ++ [.acc (.work (s.own 0)) (.list 0) true]) i j := by
  have h : ∃ s, run St.init actsTwo = some s ∧ s.bst 0 = .called ∧ s.left 0 = [] ∧ s.own 0 = 0 ∧ s.tr.length = 42 ∧ (s.tr ++ [Op.acc (.work 0) (.list 0) true])[34]? = some (.acc (.run 0) (.list 0) false) ∧
      (s.tr ++ [Op.acc (.work 0) (.list 0) true])[42]? = some (.acc (.work 0) (.list 0) true) ∧ (((s.tr ++ [Op.acc (.work 0) (.list 0) true]).drop 35).all fun o => o.gor != .run 0) = true :=
    ⟨_, rfl, by decide +kernel, by decide +kernel, by decide +kernel, by decide +kernel, by decide +kernel, by decide +kernel, by decide +kernel⟩
  obtain ⟨s, h1, h2, h3, h4, h5, h6, h7, h8⟩ := h
  rw [List.all_eq_true] at h8
  refine ⟨s, reach_run .init actsTwo h1, h2, h3, 34, 42, .acc (.run 0) (.list 0) false, .acc (.work 0) (.list 0) true, by rw [h4]; exact h6, by rw [h4]; exact h7, by omega, ⟨rfl, .inr rfl⟩, ?_, fun h => by have := h.lt; omega⟩
  rw [h4]
  refine not_before h6 (fun q o hq ho => ?_) 42
  have := h8 o (List.mem_iff_getElem?.mpr ⟨q - 35, by rw [List.getElem?_drop, show 35 + (q - 35) = q by omega]; exact ho⟩)
  simpa using this

end Verif.Props.Items
