import Verif.Base
/-
Model of `streams/record.go`, of the pool it uses (`streams/sak/pool.go` is modelled separately in
`Verif.Sak.Pool`) and of the record classification in `streams/topics.go`.
-/
namespace Verif.Record

/-- `RecordTypeHeaderKey`, `streams/record.go:30`. -/
def recordTypeHeaderKey : Bytes := ascii "__grt__"

/-- `AutoAssign = int32(-1)`, `streams/record.go:32`. -/
def autoAssign : BitVec 32 := BitVec.ofInt 32 (-1)

/-- `markerKeyString`, `streams/state_store_consumer.go:37`. -/
def markerKey : Bytes := ascii "gkes__mark"

/-- `Record`, `streams/record.go:44-50`. The two `bytes.Buffer`s are their unread contents; `err` is
present or not. -/
structure Rec where
  keyBuffer : Bytes := []
  valueBuffer : Bytes := []
  kRecord : KRecord := { partition := autoAssign }
  recordType : Bytes := []
  err : Bool := false
deriving DecidableEq, Repr

/-- The allocation function of `recordPool`, `streams/record.go:53-62`. -/
def alloc : Rec :=
  { keyBuffer := [], valueBuffer := [],
    kRecord := { partition := autoAssign, key := [], value := none },
    recordType := [], err := false }

/-- The reset function of `recordPool`, `streams/record.go:63-78` (applied when a record is
released). The `len(r.kRecord.Headers) > 0` branch is dead after the assignment to `kRecord`. -/
def reset (r : Rec) : Rec :=
  let r := { r with kRecord := { partition := autoAssign, key := [], value := none } }
  let r := if r.kRecord.headers.length > 0
    then { r with kRecord := { r.kRecord with headers := r.kRecord.headers.take 0 } } else r
  let r := { r with keyBuffer := [] }
  let r := { r with valueBuffer := [] }
  let r := { r with recordType := [] }
  { r with err := false }

/-- `WriteKey` / `WriteKeyString` / `WithKey` / `WithKeyString`, `streams/record.go:154-164,191-199`. -/
def writeKey (r : Rec) (bs : List Bytes) : Rec :=
  bs.foldl (fun r b => { r with keyBuffer := r.keyBuffer ++ b }) r

/-- `WriteValue` / `WriteValueString` / `WithValue`, `streams/record.go:170-180,201-204`. -/
def writeValue (r : Rec) (bs : List Bytes) : Rec :=
  bs.foldl (fun r b => { r with valueBuffer := r.valueBuffer ++ b }) r

/-- `WithTopic`, `streams/record.go:186-189`. -/
def withTopic (r : Rec) (t : Bytes) : Rec := { r with kRecord := { r.kRecord with topic := t } }

/-- `WithHeader`, `streams/record.go:206-209`. -/
def withHeader (r : Rec) (k v : Bytes) : Rec :=
  { r with kRecord := { r.kRecord with headers := r.kRecord.headers ++ [⟨k, v⟩] } }

/-- `WithRecordType`, `streams/record.go:211-214`; also `ChangeLogEntry.WithEntryType`, 346-349. -/
def withRecordType (r : Rec) (t : Bytes) : Rec := { r with recordType := t }

/-- `WithPartition`, `streams/record.go:216-219`. -/
def withPartition (r : Rec) (p : BitVec 32) : Rec :=
  { r with kRecord := { r.kRecord with partition := p } }

/-- `addRecordTypeHeader`, `streams/record.go:221-234`. -/
def addRecordTypeHeader (recordType : Bytes) (k : KRecord) : KRecord :=
  if recordType.length = 0 then k
  else if k.headers.any (fun h => h.key == recordTypeHeaderKey) then k
  else { k with headers := k.headers ++ [⟨recordTypeHeaderKey, recordType⟩] }

/-- `toKafkaRecord`, `streams/record.go:237-255`: fills `r.kRecord` in place and returns it. The
result is the updated record; the Kafka record handed to the client is its `kRecord`. -/
def toKafkaRecord (r : Rec) : Rec :=
  let r := { r with kRecord := { r.kRecord with key := r.keyBuffer } }
  let r := if r.valueBuffer.length > 0
    then { r with kRecord := { r.kRecord with value := some r.valueBuffer } } else r
  { r with kRecord := addRecordTypeHeader r.recordType r.kRecord }

/-- `ToKafkaRecord`, `streams/record.go:258-269`. Returns the new Kafka record and the receiver,
whose own header list is changed (line 267). A new `kgo.Record` has partition 0. -/
def toKafkaRecordPublic (r : Rec) : KRecord × Rec :=
  let record : KRecord := {}
  let record := if r.keyBuffer.length > 0 then { record with key := record.key ++ r.keyBuffer } else record
  let record := if r.valueBuffer.length > 0 then { record with value := some r.valueBuffer } else record
  (record, { r with kRecord := addRecordTypeHeader r.recordType r.kRecord })

/-- `SetRecordType`, `streams/record.go:286-291`. -/
def setRecordType (k : KRecord) (t : Bytes) : KRecord :=
  { k with headers := k.headers ++ [⟨recordTypeHeaderKey, t⟩] }

/-- `IncomingRecord`, `streams/record.go:84-87`. -/
structure Incoming where
  kRecord : KRecord
  recordType : Bytes := []
deriving DecidableEq, Repr

/-- `newIncomingRecord`, `streams/record.go:89-99`: the loop overwrites, so the last header wins. -/
def newIncoming (k : KRecord) : Incoming :=
  k.headers.foldl (fun r h => if h.key = recordTypeHeaderKey then { r with recordType := h.value } else r)
    { kRecord := k }

/-- `AsIncomingRecord`, `streams/record.go:272-277`. -/
def asIncoming (r : Rec) : Incoming :=
  { kRecord := (toKafkaRecordPublic r).1, recordType := r.recordType }

/-- `IncomingRecord.HeaderValue`, `streams/record.go:133-140`: the first header wins. -/
def headerValue (r : Incoming) (name : Bytes) : Option Bytes :=
  (r.kRecord.headers.find? (fun h => h.key == name)).map (·.value)

/-- `isMarkerRecord`, `streams/topics.go:306-308`. -/
def isMarkerRecord (k : KRecord) : Bool :=
  match k.headers with
  | [h] => h.key == markerKey
  | _ => false

/-- The record built by `sendMarkerMessage`, `streams/state_store_consumer.go:308-312`. -/
def markerRecord (tp : TopicPartition) (mark : Bytes) : KRecord :=
  { topic := tp.topic, partition := tp.partition, key := markerKey, value := some mark,
    headers := [⟨markerKey, []⟩] }

/-- `recordSize`, `streams/record.go:34-42`. -/
def recordSize (k : KRecord) : Nat :=
  k.headers.foldl (fun n h => n + h.key.length + h.value.length)
    (k.key.length + (k.value.getD []).length)

/-- A `kgo.TopicPartitioner`: picks a partition for a record among `n` partitions. Opaque. Used in `streams/record.go:356-408`. -/
abbrev TopicPartitioner := KRecord → Nat → Int

/-- `kgo.Partitioner` (`ForTopic`). Opaque. Used in `streams/record.go:356-408`. -/
abbrev Partitioner := Bytes → TopicPartitioner

/-- franz-go's `kgo.ManualPartitioner()`: the record's own partition field. (Library contract.) Used in `streams/record.go:356-408`. -/
def manualPartitioner : Partitioner := fun _ r _ => r.partition.toInt

/-- `OptionalPartitioner`, `streams/record.go:356-360`. -/
structure OptionalPartitioner where
  manual : Partitioner
  default : Partitioner
  perTopic : List (Bytes × Partitioner)

/-- `NewOptionalPerTopicPartitioner`, `streams/record.go:376-382`. -/
def newOptionalPerTopic (d : Partitioner) (m : List (Bytes × Partitioner)) : OptionalPartitioner :=
  { manual := manualPartitioner, default := d, perTopic := m }

/-- `NewOptionalPartitioner`, `streams/record.go:370-372`. -/
def newOptional (d : Partitioner) : OptionalPartitioner := newOptionalPerTopic d []

/-- `OptionalPartitioner.ForTopic(topic).Partition(r, n)`, `streams/record.go:384-404`. -/
def OptionalPartitioner.partition (op : OptionalPartitioner) (topic : Bytes) (r : KRecord) (n : Nat) : Int :=
  let p := match op.perTopic.find? (fun e => e.1 == topic) with
    | some e => e.2
    | none => op.default
  if r.partition = autoAssign then p topic r n else op.manual topic r n

end Verif.Record
