import Verif.Record.Model
/-
`EventContext` as the application sees it (`streams/event_context.go`), change-log entries (`streams/record.go:296-354,406-421`) and the data of a
change log (`streams/partitioned_store.go:24-57`).

The producer is the list of the records that it is called with, in order; what happens to them is in `Verif.Eos`, `Verif.Recycle`.
-/
namespace Verif.Context
open Verif.Record

/-- One call on a `ChangeLogEntry`, `streams/record.go:307-354`: `KeyWriter().Write`, `WriteKey`, `WriteKeyString`, `WithKey`, `WithKeyString` are `key`;
`ValueWriter().Write`, `WriteValue`, `WriteValueString`, `WithValue` are `value`. There is no call that sets a topic or a partition. -/
inductive EntryOp
  | key (bs : List Bytes)
  | value (bs : List Bytes)
  | type (t : Bytes)
  | header (k v : Bytes)
  deriving DecidableEq, Repr

/-- What the call does to the record of the entry, `streams/record.go:307-354`. -/
def EntryOp.exec (r : Rec) : EntryOp → Rec
  | .key bs => writeKey r bs
  | .value bs => writeValue r bs
  | .type t => { r with recordType := t }
  | .header k v => withHeader r k v

/-- `NewChangeLogEntry` (`streams/record.go:303-305`) followed by calls. -/
def entry (ops : List EntryOp) : Rec := ops.foldl EntryOp.exec alloc

/-- A codec (`streams/codec.go:24-33`): the bytes that are written and whether there was an error; the decoder. -/
structure Codec (T : Type) where
  encode : T → Bytes × Bool
  decode : Bytes → Option T

/-- `CreateChangeLogEntry`, `streams/record.go:418-421`: the entry and whether there was an error. `CreateJsonChangeLogEntry` (410-412) is the same
with the JSON codec. -/
def createEntry {T : Type} (c : Codec T) (x : T) : Rec × Bool :=
  (EntryOp.exec alloc (.value [(c.encode x).1]), (c.encode x).2)

/-- `changeLogData`, `streams/partitioned_store.go:24-28`; `changeLogPartition` is the same type (28), and `grab`, `changeLogData`, `release`
(30-41) only convert. -/
structure ChangeLog (S : Type) where
  store : S
  topic : Bytes

/-- `receiveChangeInternal`, `streams/partitioned_store.go:43-52`, for a store whose `ReceiveChange` is a function; an error is logged and returned. -/
def receiveChange {S : Type} (f : S → Incoming → S × Bool) (cl : ChangeLog S) (k : KRecord) : ChangeLog S × Bool :=
  let (s, err) := f cl.store (newIncoming k)
  ({ cl with store := s }, err)

/-- `EventContext`, `streams/event_context.go:35-50`. `ctx` is the state of the Go context (cancelled or not), absent if nil. -/
structure ECtx (S : Type) where
  ctx : Option Bool
  input : Incoming
  changeLog : ChangeLog S
  topicPartition : TopicPartition
  interjection : Bool

/-- `newEventContext`, `streams/event_context.go:190-204`. -/
def newEventContext {S : Type} (cancelled : Bool) (k : KRecord) (cl : ChangeLog S) : ECtx S :=
  let input := newIncoming k
  { ctx := some cancelled, input := input, changeLog := cl, topicPartition := ⟨input.kRecord.partition, input.kRecord.topic⟩, interjection := false }

/-- `newInterjectionContext`, `streams/event_context.go:206-218`. The zero `IncomingRecord` has partition 0. -/
def newInterjectionContext {S : Type} (cancelled : Bool) (tp : TopicPartition) (cl : ChangeLog S) : ECtx S :=
  { ctx := some cancelled, input := { kRecord := { partition := 0 } }, changeLog := cl, topicPartition := tp, interjection := true }

/-- `MockEventContext`, `streams/event_context.go:62-77`, with an input. -/
def mockEventContext {S : Type} (cancelled : Bool) (input : Rec) (topic : Bytes) (store : S) : ECtx S :=
  { ctx := some cancelled, changeLog := ⟨store, topic⟩, interjection := false, input := asIncoming input,
    -- `Record.TopicPartition`, `streams/record.go:150-152`
    topicPartition := ⟨(toKafkaRecordPublic input).2.kRecord.partition, (toKafkaRecordPublic input).2.kRecord.topic⟩ }

/-- `MockInterjectionEventContext`, `streams/event_context.go:89-101`: the context is not stored. -/
def mockInterjectionContext {S : Type} (_cancelled : Bool) (tp : TopicPartition) (topic : Bytes) (store : S) : ECtx S :=
  { ctx := none, topicPartition := tp, changeLog := ⟨store, topic⟩, interjection := true, input := { kRecord := { partition := 0 } } }

/-- `isRevoked`, `streams/event_context.go:103-105`; `none`: nil dereference. -/
def ECtx.isRevoked {S : Type} (ec : ECtx S) : Option Bool := ec.ctx

/-- `IsInterjection`, `streams/event_context.go:108-110`. -/
def ECtx.isInterjection {S : Type} (ec : ECtx S) : Bool := ec.interjection

/-- `Offset`, `streams/event_context.go:113-118`. -/
def ECtx.offset {S : Type} (ec : ECtx S) : Int := if ec.isInterjection then -1 else ec.input.kRecord.offset

/-- `Input`, `streams/event_context.go:177-179`. -/
def ECtx.inputOf {S : Type} (ec : ECtx S) : Incoming × Bool := (ec.input, !ec.isInterjection)

/-- `Store`, `streams/event_context.go:182-184`. -/
def ECtx.store {S : Type} (ec : ECtx S) : S := ec.changeLog.store

/-- `Forward`, `streams/event_context.go:136-140`: the calls of the producer after `calls`. -/
def forward (calls : List Rec) (records : List Rec) : List Rec :=
  records.foldl (fun calls r => calls ++ [r]) calls

/-- `RecordChange`, `streams/event_context.go:150-163`. -/
def recordChange {S : Type} (ec : ECtx S) (calls : List Rec) (entries : List Rec) : List Rec :=
  entries.foldl (fun calls r =>
    if ec.changeLog.topic.length > 0 then calls ++ [withPartition (withTopic r ec.changeLog.topic) ec.topicPartition.partition] else calls) calls

end Verif.Context
