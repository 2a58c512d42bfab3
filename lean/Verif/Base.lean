/-
Shared vocabulary of the model: bytes, topic partitions, Kafka records.
-/
namespace Verif

/-- A Go `byte`. -/
abbrev Byte := BitVec 8

/-- A Go `[]byte`, and also a Go `string` (a Go string is an arbitrary byte sequence).
Simplification: `nil` and empty slices are identified unless a model uses `Option Bytes`. -/
abbrev Bytes := List Byte

/-- `TopicPartition`, `streams/topics.go:31-34`. `Partition` is an `int32`. -/
structure TopicPartition where
  partition : BitVec 32
  topic : Bytes
deriving DecidableEq, Repr

/-- `kgo.RecordHeader` of franz-go: a key string and a value. -/
structure Header where
  key : Bytes
  value : Bytes
deriving DecidableEq, Repr

/-- `kgo.Record` of franz-go, restricted to the fields the repository reads or writes
(`streams/record.go:44-129`). `value = none` is a nil value (a deletion tombstone).
Simplification: timestamp, leader epoch, producer id and context are left out. -/
structure KRecord where
  topic : Bytes := []
  partition : BitVec 32 := 0
  key : Bytes := []
  value : Option Bytes := none
  headers : List Header := []
  offset : Int := 0
deriving DecidableEq, Repr

/-- Bytes of an ASCII literal (for constants and examples). -/
def ascii (s : String) : Bytes := s.toList.map fun c => BitVec.ofNat 8 c.toNat

end Verif
