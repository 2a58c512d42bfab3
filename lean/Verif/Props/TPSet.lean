import Verif.TPSet.Model
import Verif.BTree.Proofs
import Verif.Record.Proofs
/-
Property C54: `TopicPartitionSet` is an ordered set.
-/
namespace Verif.TPSet
open Verif.BTree

namespace Spec

/-- A partition number that Kafka can assign. -/
def Valid (tp : TopicPartition) : Prop := 0 ≤ tp.partition.toInt

/-- Ascending order of partition then topic. -/
def Before (a b : TopicPartition) : Prop :=
  a.partition.toInt < b.partition.toInt ∨ (a.partition = b.partition ∧ bytesLess a.topic b.topic = true)

/-- The element an operation is about. -/
def target : Op → TopicPartition
  | .insert tp => tp
  | .remove tp => tp

/-- The finite set after a sequence of operations, as a predicate. -/
def member : List Op → TopicPartition → Prop
  | [], _ => False
  | op :: earlier, tp => match op with
    | .insert x => tp = x ∨ member earlier tp
    | .remove x => tp ≠ x ∧ member earlier tp

end Spec

theorem sub_slt (x y : BitVec 32) (hx : 0 ≤ x.toInt) (hy : 0 ≤ y.toInt) :
    (x - y).slt 0 = true ↔ x.toInt < y.toInt := by
  rw [BitVec.slt_iff_toInt_lt, BitVec.toInt_sub]
  have h1 := BitVec.toInt_lt (x := x)
  have h2 := BitVec.toInt_lt (x := y)
  rw [Int.bmod_eq_of_le (by omega) (by omega)]
  have : (0 : BitVec 32).toInt = 0 := by decide
  omega

theorem sub_ne_zero (x y : BitVec 32) : x - y ≠ 0 ↔ x ≠ y := by
  constructor
  · rintro h rfl
    exact h (by simp)
  · intro h hc
    have : x - y + y = 0 + y := by rw [hc]
    rw [BitVec.sub_add_cancel] at this
    exact h (this.trans (BitVec.zero_add y))

/-- On valid partitions the comparator is the documented order. -/
theorem less_iff (a b : TopicPartition) (ha : Spec.Valid a) (hb : Spec.Valid b) :
    topicPartitionLess a b = true ↔ Spec.Before a b := by
  unfold topicPartitionLess Spec.Before
  dsimp only
  by_cases h : a.partition = b.partition
  · rw [if_neg (by rw [sub_ne_zero]; simp [h])]
    simp [h]
  · rw [if_pos ((sub_ne_zero _ _).mpr h), sub_slt _ _ ha hb]
    simp [h]

theorem ordOn : OrdOn topicPartitionLess Spec.Valid where
  irrefl a ha := by
    rw [Bool.eq_false_iff, ne_eq, less_iff a a ha ha]
    rintro (h | ⟨_, h⟩)
    · omega
    · rw [bytesLess_irrefl] at h; cases h
  trans a b c ha hb hc h1 h2 := by
    rw [less_iff _ _ ha hb] at h1
    rw [less_iff _ _ hb hc] at h2
    rw [less_iff _ _ ha hc]
    rcases h1 with h1 | ⟨e1, h1⟩ <;> rcases h2 with h2 | ⟨e2, h2⟩
    · exact .inl (by omega)
    · exact .inl (by rw [← e2]; exact h1)
    · exact .inl (by rw [e1]; exact h2)
    · exact .inr ⟨e1.trans e2, bytesLess_trans _ _ _ h1 h2⟩
  cotrans a b c ha hb hc h := by
    rw [less_iff _ _ ha hc] at h
    rw [less_iff _ _ ha hb, less_iff _ _ hb hc]
    unfold Spec.Before at *
    rcases h with h | ⟨e, h⟩
    · by_cases h1 : a.partition.toInt < b.partition.toInt
      · exact .inl (.inl h1)
      · exact .inr (.inl (by omega))
    · by_cases h1 : a.partition = b.partition
      · rcases bytesLess_ordOn.cotrans a.topic b.topic c.topic trivial trivial trivial h with hx | hx
        · exact .inl (.inr ⟨h1, hx⟩)
        · exact .inr (.inr ⟨h1.symm.trans e, hx⟩)
      · have : a.partition.toInt ≠ b.partition.toInt := fun hh => h1 (BitVec.eq_of_toInt_eq hh)
        have : a.partition.toInt = c.partition.toInt := by rw [e]
        by_cases h2 : a.partition.toInt < b.partition.toInt
        · exact .inl (.inl h2)
        · exact .inr (.inl (by omega))

theorem eqv_iff (a b : TopicPartition) (ha : Spec.Valid a) (hb : Spec.Valid b) :
    Eqv topicPartitionLess a b ↔ a = b := by
  constructor
  · rintro ⟨h1, h2⟩
    rw [Bool.eq_false_iff, ne_eq, less_iff _ _ ha hb] at h1
    rw [Bool.eq_false_iff, ne_eq, less_iff _ _ hb ha] at h2
    unfold Spec.Before at *
    push Not at h1 h2
    have hp : a.partition = b.partition := BitVec.eq_of_toInt_eq (by omega)
    have ht : a.topic = b.topic := by
      rw [← bytesLess_eqv]
      exact ⟨by simpa using h1.2 hp, by simpa using h2.2 hp.symm⟩
    obtain ⟨_, _⟩ := a
    obtain ⟨_, _⟩ := b
    simp_all
  · rintro rfl
    exact Eqv.refl' ordOn ha

/-- The invariant carried through every sequence of operations. -/
theorem run_inv (ops : List Op) (hv : ∀ op ∈ ops, Spec.Valid (Spec.target op)) :
    Sorted topicPartitionLess (run ops) ∧ (∀ tp ∈ run ops, Spec.Valid tp) ∧
      ∀ tp, tp ∈ run ops ↔ Spec.member ops.reverse tp := by
  induction ops using Record.snoc_induction with
  | h0 => simp [run, new, Sorted, Spec.member]
  | hs ops op ih =>
    obtain ⟨h1, h2, h3⟩ := ih fun o ho => hv o (by simp [ho])
    have hop := hv op (by simp)
    have hr : run (ops ++ [op]) = (exec (run ops) op).1 := by simp [run]
    rw [hr, List.reverse_append]
    cases op with
    | insert x =>
      replace hop : Spec.Valid x := hop
      refine ⟨sorted_replaceOrInsert ordOn hop h2 h1, dom_replaceOrInsert ordOn hop h2 h1, ?_⟩
      intro tp
      simp only [exec, insert, List.reverse_singleton, List.singleton_append, Spec.member]
      rw [mem_replaceOrInsert ordOn hop h2 h1, ← h3]
      constructor
      · rintro (h | ⟨h, _⟩)
        · exact .inl h
        · exact .inr h
      · rintro (h | h)
        · exact .inl h
        · by_cases he : tp = x
          · exact .inl he
          · exact .inr ⟨h, fun hc => he ((eqv_iff _ _ hop (h2 tp h)).mp hc).symm⟩
    | remove x =>
      replace hop : Spec.Valid x := hop
      refine ⟨sorted_delete x h1, dom_delete x h2, ?_⟩
      intro tp
      simp only [exec, remove, List.reverse_singleton, List.singleton_append, Spec.member]
      rw [mem_delete ordOn hop h2 h1, ← h3]
      constructor
      · rintro ⟨h, hn⟩
        exact ⟨fun he => hn (by rw [he]; exact Eqv.refl' ordOn hop), h⟩
      · rintro ⟨hn, h⟩
        exact ⟨h, fun hc => hn ((eqv_iff _ _ hop (h2 tp h)).mp hc).symm⟩

theorem contains_iff (ops : List Op) (hv : ∀ op ∈ ops, Spec.Valid (Spec.target op)) (tp : TopicPartition)
    (htp : Spec.Valid tp) : contains (run ops) tp = true ↔ Spec.member ops.reverse tp := by
  obtain ⟨h1, h2, h3⟩ := run_inv ops hv
  unfold contains
  rw [Option.isSome_iff_exists, ← h3]
  constructor
  · rintro ⟨y, hy⟩
    obtain ⟨hm, he⟩ := (get_eq_some_iff ordOn htp h2 h1 y).mp hy
    rw [(eqv_iff _ _ htp (h2 y hm)).mp he]
    exact hm
  · intro hm
    exact ⟨tp, (get_eq_some_iff ordOn htp h2 h1 tp).mpr ⟨hm, Eqv.refl' ordOn htp⟩⟩

/-- C54. `Contains` answers membership in the finite set described by the operations. -/
theorem C54_contains (ops : List Op) (hv : ∀ op ∈ ops, Spec.Valid (Spec.target op)) (tp : TopicPartition)
    (htp : Spec.Valid tp) : contains (run ops) tp = true ↔ Spec.member ops.reverse tp :=
  contains_iff ops hv tp htp

/-- C54. `Items` lists exactly the members, in ascending order of partition then topic, each once, and
`Len` is their number. -/
theorem C54_items (ops : List Op) (hv : ∀ op ∈ ops, Spec.Valid (Spec.target op)) :
    (items (run ops)).Pairwise Spec.Before ∧ (items (run ops)).Nodup ∧
    (∀ tp, tp ∈ items (run ops) ↔ Spec.member ops.reverse tp) ∧
    (items (run ops)).length = BTree.len (run ops) := by
  obtain ⟨h1, h2, h3⟩ := run_inv ops hv
  have hi : items (run ops) = run ops := by
    unfold items
    generalize run ops = l
    induction l using Record.snoc_induction with
    | h0 => rfl
    | hs l a ih => rw [List.foldl_append, ih]; rfl
  rw [hi]
  have hp : (run ops).Pairwise Spec.Before := by
    refine List.Pairwise.imp_of_mem ?_ h1
    intro a b ha hb hab
    exact (less_iff a b (h2 a ha) (h2 b hb)).mp hab
  refine ⟨hp, ?_, h3, rfl⟩
  refine List.Pairwise.imp ?_ hp
  rintro a b (h | ⟨_, h⟩) rfl
  · omega
  · rw [bytesLess_irrefl] at h; cases h

/-- C54. `Insert` reports whether the element was new and `Remove` whether it was present. -/
theorem C54_results (ops : List Op) (hv : ∀ op ∈ ops, Spec.Valid (Spec.target op)) (tp : TopicPartition)
    (htp : Spec.Valid tp) :
    ((exec (run ops) (.insert tp)).2 = true ↔ ¬ Spec.member ops.reverse tp) ∧
    ((exec (run ops) (.remove tp)).2 = true ↔ Spec.member ops.reverse tp) := by
  have hc := contains_iff ops hv tp htp
  unfold contains at hc
  simp only [exec, insert, remove, replaceOrInsert_old, delete_old]
  refine ⟨?_, hc⟩
  rw [← hc]
  simp

example : ∀ op ∈ [Op.insert ⟨7, [1]⟩, .insert ⟨3, [2]⟩, .insert ⟨3, [1]⟩, .remove ⟨7, [1]⟩],
    Spec.Valid (Spec.target op) := by
  simp [Spec.target, Spec.Valid]
example : items (run [.insert ⟨7, [1]⟩, .insert ⟨3, [2]⟩, .insert ⟨3, [1]⟩, .remove ⟨7, [1]⟩])
    = [⟨3, [1]⟩, ⟨3, [2]⟩] := by decide

/-- The restriction to valid partitions is needed: with numbers Kafka never uses, the subtraction in the
comparator wraps around and the iteration order is wrong. -/
theorem C54_domain_sharp : ∃ a b : TopicPartition, ¬ Spec.Valid a ∧ Spec.Before a b ∧
    items (run [.insert a, .insert b]) = [b, a] :=
  ⟨⟨BitVec.ofInt 32 (-2), []⟩, ⟨2147483647, []⟩, by unfold Spec.Valid; decide, by unfold Spec.Before; decide, by decide⟩

end Verif.TPSet
