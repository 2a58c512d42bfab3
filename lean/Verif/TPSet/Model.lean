import Verif.BTree.Model
/-
`TopicPartitionSet`, `streams/topics.go:44-91`.
-/
namespace Verif.TPSet
open Verif.BTree

/-- `topicPartitionLess`, `streams/topics.go:52-58`, with the wrapping `int32` subtraction. -/
def topicPartitionLess (a b : TopicPartition) : Bool :=
  let res := a.partition - b.partition
  if res ≠ 0 then res.slt 0 else bytesLess a.topic b.topic

/-- `TopicPartitionSet`, `streams/topics.go:47-49`: the embedded tree. -/
abbrev TopicPartitionSet := List TopicPartition

/-- `NewTopicPartitionSet`, `streams/topics.go:61-63`. -/
def new : TopicPartitionSet := []

/-- `Insert`, `streams/topics.go:66-69`. -/
def insert (s : TopicPartitionSet) (tp : TopicPartition) : TopicPartitionSet × Bool :=
  let r := replaceOrInsert topicPartitionLess tp s
  (r.1, !r.2.isSome)

/-- `Contains`, `streams/topics.go:72-75`. -/
def contains (s : TopicPartitionSet) (tp : TopicPartition) : Bool := (get topicPartitionLess tp s).isSome

/-- `Remove`, `streams/topics.go:78-81`. -/
def remove (s : TopicPartitionSet) (tp : TopicPartition) : TopicPartitionSet × Bool :=
  let r := delete topicPartitionLess tp s
  (r.1, r.2.isSome)

/-- `Items`, `streams/topics.go:84-91`: appends in ascending order to a new slice. -/
def items (s : TopicPartitionSet) : List TopicPartition := s.foldl (fun acc tp => acc ++ [tp]) []

/-- A mutating call. `streams/topics.go:66-82`. -/
inductive Op
  | insert (tp : TopicPartition)
  | remove (tp : TopicPartition)

/-- One call (`streams/topics.go:66-81`) with its result. -/
def exec (s : TopicPartitionSet) : Op → TopicPartitionSet × Bool
  | .insert tp => insert s tp
  | .remove tp => remove s tp

/-- The set after a sequence of calls on a new set (`streams/topics.go:61-81`). -/
def run (ops : List Op) : TopicPartitionSet := ops.foldl (fun s op => (exec s op).1) new

end Verif.TPSet
