import Verif.Codec.Model
import Verif.Record.Model
/-
Model of `streams/commit_log.go` (offset commit log) and of the forwarding loop of
`streams/global_change_log.go` that feeds it.
-/
namespace Verif.CommitLog
open Verif.Codec Verif.Record

/-- `eosCommitLog`, `streams/commit_log.go:26-34`. Go maps become functions / lists; the wait group
of a pending sync is "in `pending`", a released one is "in `released`". -/
structure CL where
  watermarks : BitVec 32 → Option (BitVec 64) := fun _ => none
  pending : List Bytes := []
  released : List Bytes := []

/-- `commitRecordPartition`, `streams/commit_log.go:72-74`: Go's `%` on `int32` (truncated). -/
def commitRecordPartition (n : BitVec 32) (tp : TopicPartition) : BitVec 32 := tp.partition.srem n

/-- `commitRecord`, `streams/commit_log.go:76-82`. `offset+1` wraps like `int64`. -/
def commitRecord (logTopic : Bytes) (n : BitVec 32) (tp : TopicPartition) (offset : BitVec 64) : Rec :=
  let record := withPartition (withTopic alloc logTopic) (commitRecordPartition n tp)
  let record := { record with keyBuffer := writeTopicPartition record.keyBuffer tp }
  { record with valueBuffer := writeSignedInt record.valueBuffer (offset + 1) }

/-- `closeSyncRequest`, `streams/commit_log.go:99-106`. -/
def CL.closeSyncRequest (cl : CL) (mark : Bytes) : CL :=
  if mark ∈ cl.pending then
    { cl with pending := cl.pending.filter (· ≠ mark), released := mark :: cl.released }
  else cl

/-- `ReceiveChange`, `streams/commit_log.go:84-95`. `none` is a crash (out-of-bounds read). -/
def CL.receiveChange (cl : CL) (record : KRecord) : Option CL :=
  if isMarkerRecord record then some (cl.closeSyncRequest (record.value.getD []))
  else
    match topicPartitionFromBytes record.key, readInteger 64 (record.value.getD []) with
    | some tp, some offset =>
      some { cl with watermarks := fun p => if p = tp.partition then some offset else cl.watermarks p }
    | _, _ => none

/-- The consume loop of `GlobalChangeLog`, `streams/global_change_log.go:113-136`: every fetched record
is forwarded to `ReceiveChange` in the order of the fetches. -/
def CL.consume (cl : CL) (records : List KRecord) : Option CL := records.foldlM CL.receiveChange cl

/-- `Watermark`, `streams/commit_log.go:137-144`. -/
def CL.watermark (cl : CL) (tp : TopicPartition) : BitVec 64 :=
  match cl.watermarks tp.partition with
  | some offset => offset
  | none => BitVec.ofInt 64 (-1)

/-- First half of `syncCommitLogPartition`, `streams/commit_log.go:126-132`: registers a fresh mark
(a UUID; uniqueness is a hypothesis of the theorems). The second half sends the marker record to the
commit log (`sendMarkerMessage`) and waits until the mark is released. -/
def CL.registerSync (cl : CL) (mark : Bytes) : CL := { cl with pending := mark :: cl.pending }

end Verif.CommitLog
