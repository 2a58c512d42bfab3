import Verif.Encode.Model
/-
Property C85: a value that cannot be encoded does not pass for a deletion (`streams/codec.go:42-69`, `131-150`, `streams/record.go:237-255`, `406-421`,
`streams/stores/simple_store.go:54-61`, `84-95`).
-/
set_option linter.unusedSimpArgs false
namespace Verif.Encode
open Verif.Record Verif.Context

/-- A record without a value: to Kafka and to the stores, the deletion of its key. -/
def Deletes (r : Rec) : Prop := (toKafkaRecord r).kRecord.value = none

theorem writeValue_one (r : Rec) (b : Bytes) : writeValue r [b] = { r with valueBuffer := r.valueBuffer ++ b } := rfl

theorem writeKey_all (r : Rec) (ks : List Bytes) : writeKey r ks = { r with keyBuffer := r.keyBuffer ++ ks.flatten } := by
  unfold writeKey
  induction ks generalizing r with
  | nil => simp
  | cons k ks ih => rw [List.foldl_cons, ih]; simp [List.append_assoc]

theorem value_of (r : Rec) : (toKafkaRecord r).kRecord.value = if r.valueBuffer = [] then r.kRecord.value else some r.valueBuffer := by
  unfold toKafkaRecord addRecordTypeHeader
  dsimp only
  cases hv : r.valueBuffer with
  | nil => simp; (repeat' split) <;> rfl
  | cons b bs => simp; (repeat' split) <;> rfl

theorem key_of (r : Rec) : (toKafkaRecord r).kRecord.key = r.keyBuffer := by
  unfold toKafkaRecord addRecordTypeHeader
  dsimp only
  repeat' split
  all_goals rfl

/-- **C85** (successful encodings). If the item is encoded without an error to a text that is not empty (JSON texts never are), all three functions give
a record with that value: it is no deletion, and the decoder gives the item back. -/
theorem C85_encoded_partial {T : Type} (c : Codec T) (x : T) (t : Bytes) (keys : List Bytes) (he : (c.encode x).2 = false) (hn : (c.encode x).1 ≠ []) :
    (createEntry c x).2 = false ∧
    ∀ r ∈ [jsonItemEncoder c t x, encodeEntryValue c t x, (createEntry c x).1],
      ¬ Deletes (writeKey r keys) ∧ (toKafkaRecord (writeKey r keys)).kRecord.value = some (c.encode x).1 ∧
      (toKafkaRecord (writeKey r keys)).kRecord.key = keys.flatten := by
  refine ⟨he, ?_⟩
  intro r hr
  have hv : r.valueBuffer = (c.encode x).1 ∧ r.keyBuffer = [] := by
    simp only [List.mem_cons, List.not_mem_nil, or_false] at hr
    rcases hr with rfl | rfl | rfl
    · exact ⟨rfl, rfl⟩
    · exact ⟨rfl, rfl⟩
    · exact ⟨rfl, rfl⟩
  have h2 : (toKafkaRecord (writeKey r keys)).kRecord.value = some (c.encode x).1 := by
    rw [value_of, writeKey_all]
    dsimp only
    rw [hv.1, if_neg hn]
  refine ⟨?_, h2, ?_⟩
  · unfold Deletes
    rw [h2]
    simp
  · rw [key_of, writeKey_all]
    dsimp only
    rw [hv.2, List.nil_append]

/-- **C85** (JSON round trip). An item that the JSON library can write and read back comes back from `JsonItemDecoder`, with the type it was given. -/
theorem C85_roundtrip_partial {T : Type} (json : T → Option Bytes) (parse : Bytes → Option T) (x : T) (b : Bytes) (t : Bytes) (hj : json x = some b)
    (hb : b ≠ []) (hp : parse b = some x) :
    jsonItemDecoder (jsonCodec json parse) (newIncoming (toKafkaRecord (jsonItemEncoder (jsonCodec json parse) t x)).kRecord) = some x ∧
    (newIncoming (toKafkaRecord (jsonItemEncoder (jsonCodec json parse) t x)).kRecord).recordType = t := by
  have hk : ∀ (hs : List Header) (r : Incoming), (hs.foldl (fun (r : Incoming) h =>
      if h.key = recordTypeHeaderKey then { r with recordType := h.value } else r) r).kRecord = r.kRecord := by
    intro hs
    induction hs with
    | nil => intro r; rfl
    | cons h hs ih => intro r; rw [List.foldl_cons, ih]; split <;> rfl
  have hr : jsonItemEncoder (jsonCodec json parse) t x =
      { alloc with recordType := t, valueBuffer := b } := by
    unfold jsonItemEncoder jsonCodec withRecordType
    rw [writeValue_one]
    simp [hj, alloc]
  rw [hr]
  constructor
  · unfold jsonItemDecoder newIncoming
    rw [hk]
    dsimp only
    rw [value_of]
    dsimp only
    rw [if_neg hb]
    exact hp
  · have hlen : 0 < b.length := List.length_pos_iff.2 hb
    cases t with
    | nil => simp [toKafkaRecord, addRecordTypeHeader, newIncoming, alloc, hlen]
    | cons a t =>
      simp [toKafkaRecord, addRecordTypeHeader, newIncoming, alloc, hlen]

/-- **C85** (errors of `CreateChangeLogEntry`). The caller of `CreateChangeLogEntry` is told of every error. (Missing: the two functions of `streams/codec.go` that
ignore it, `C85_violated_record` and `C85_violated_entry`, and items with an empty encoding, `C85_violated_empty`.) -/
theorem C85_told_partial {T : Type} (json : T → Option Bytes) (parse : Bytes → Option T) (x : T) :
    (createEntry (jsonCodec json parse) x).2 = true ↔ json x = none := by
  unfold createEntry jsonCodec
  cases h : json x <;> simp [h]

/-- **C85** (`SimpleStore`). `ToChangeLogEntry` panics on an error and never returns an entry for it. -/
theorem C85_store_panics_partial {T : Type} (ty : Stores.ItemType T) (x : T) : Stores.toChangeLogEntry ty x = none ↔ ty.encode x = none := by
  unfold Stores.toChangeLogEntry
  cases ty.encode x <;> simp

/-- **C85 is violated**: for every item that cannot be encoded, `JsonItemEncoder` returns a record that deletes its key, whatever the type and the key, and nothing tells the
caller. -/
theorem C85_violated_record {T : Type} (json : T → Option Bytes) (parse : Bytes → Option T) (x : T) (h : json x = none) (t : Bytes) (keys : List Bytes) :
    Deletes (writeKey (jsonItemEncoder (jsonCodec json parse) t x) keys) := by
  unfold Deletes
  rw [value_of, writeKey_all]
  simp [jsonItemEncoder, jsonCodec, h, writeValue, withRecordType, alloc]

/-- **C85 is violated**: for every item that cannot be encoded, the entry of `EncodeJsonChangeLogEntryValue` deletes the item of its key from a `SimpleStore` that is rebuilt from the
change log. -/
theorem C85_violated_entry {T U : Type} (json : T → Option Bytes) (parse : Bytes → Option T) (x : T) (h : json x = none) (t k : Bytes) (ty : Stores.ItemType U)
    (s : Stores.Store U) :
    Stores.receiveChange ty s (arrives (writeKey (encodeEntryValue (jsonCodec json parse) t x) [k])) =
      ((BTree.delete Stores.keyedLess ⟨k, none⟩ s).1, true) := by
  have hv : arrives (writeKey (encodeEntryValue (jsonCodec json parse) t x) [k]) = ⟨k, []⟩ := by
    unfold arrives
    dsimp only
    rw [value_of, key_of, writeKey_all]
    simp [encodeEntryValue, EntryOp.exec, jsonCodec, h, writeValue, alloc]
  rw [hv]
  simp [Stores.receiveChange]

/-- Small items: the numbers below 10 have a JSON text, others are refused (like `NaN` or a channel in Go). -/
def digit (n : Nat) : Option Bytes := if n < 10 then some [BitVec.ofNat 8 (48 + n)] else none

/-- Reads a digit. -/
def undigit (b : Bytes) : Option Nat := b.head?.map fun x => x.toNat - 48

/-- The store for the examples. -/
def digits : Stores.ItemType Nat := { key := fun _ => ascii "k", encode := digit, decode := fun b => ((undigit b).getD 0, true) }

/-- The theorems apply: 7 is written and comes back, 12 is refused; its entry removes the item that the store has under the key. -/
example : (jsonCodec digit undigit).encode 7 = ([55], false) ∧ digit 12 = none ∧
    jsonItemDecoder (jsonCodec digit undigit) (newIncoming (toKafkaRecord (jsonItemEncoder (jsonCodec digit undigit) (ascii "n") 7)).kRecord) = some 7 ∧
    Stores.get (Stores.put digits (Stores.newStore Nat) 7).1 (ascii "k") = some 7 ∧
    Stores.get (Stores.receiveChange digits (Stores.put digits (Stores.newStore Nat) 7).1
      (arrives (writeKey (encodeEntryValue (jsonCodec digit undigit) (ascii "n") 12) [ascii "k"]))).1 (ascii "k") = none := by decide

/-- **C85 is violated** without any error: an item whose encoding is empty (the empty string with the string codec) is written as a deletion. -/
theorem C85_violated_empty : ∃ c : Codec Bytes, c.encode [] = ([], false) ∧ c.decode (c.encode []).1 = some [] ∧ (createEntry c []).2 = false ∧
    Deletes (writeKey (createEntry c []).1 [ascii "k"]) := by
  refine ⟨⟨fun s => (s, false), some⟩, rfl, rfl, rfl, ?_⟩
  unfold Deletes
  decide

end Verif.Encode
