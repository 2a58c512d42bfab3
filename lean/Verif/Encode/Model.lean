import Verif.Context.Model
import Verif.Stores.Model
/-
The functions that make records and change-log entries from items: `JsonItemEncoder`, `JsonItemDecoder`, `EncodeJsonChangeLogEntryValue`
(`streams/codec.go:42-69`), `JsonCodec` (131-150), `CreateChangeLogEntry` (`streams/record.go:418-421`, in `Verif.Context.Model`).

The JSON library is external: a codec is a pair of functions. On an error its `Flush` returns before it writes, so that nothing is written (`streams/codec.go:135-140`).
-/
namespace Verif.Encode
open Verif.Record Verif.Context

/-- What `JsonCodec` does with an item, `streams/codec.go:135-150`: `json` is the text, or `none` if the library reports an error; then nothing is written.
Simplified: the library may have passed on the text of an inner map before it meets the error; that text would then be an incomplete value. -/
def jsonCodec {T : Type} (json : T → Option Bytes) (parse : Bytes → Option T) : Codec T :=
  { encode := fun x => match json x with
      | some b => (b, false)
      | none => ([], true)
    decode := parse }

/-- `JsonItemEncoder`, `streams/codec.go:52-57`: the result of `Encode` is ignored. -/
def jsonItemEncoder {T : Type} (c : Codec T) (recordType : Bytes) (item : T) : Rec :=
  writeValue (withRecordType alloc recordType) [(c.encode item).1]

/-- `JsonItemDecoder`, `streams/codec.go:42-45`. -/
def jsonItemDecoder {T : Type} (c : Codec T) (r : Incoming) : Option T := c.decode (r.kRecord.value.getD [])

/-- `EncodeJsonChangeLogEntryValue`, `streams/codec.go:64-69`: the result of `Encode` is ignored. -/
def encodeEntryValue {T : Type} (c : Codec T) (entryType : Bytes) (item : T) : Rec :=
  writeValue (EntryOp.exec alloc (.type entryType)) [(c.encode item).1]

/-- What a store gets of an entry (`streams/partitioned_store.go:43-52`): key and value; no value and an empty one are the same to it
(`streams/stores/simple_store.go:85`). -/
def arrives (r : Rec) : Stores.Entry :=
  let k := (toKafkaRecord r).kRecord
  ⟨k.key, k.value.getD []⟩

end Verif.Encode
