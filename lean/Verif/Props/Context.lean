import Verif.Context.Spec
import Verif.Props.Record
import Mathlib.Data.List.Basic
/-
Property C78: what `Forward` and `RecordChange` hand to the producer, and what contexts say about their event, for every event, every application and
every codec.
-/
namespace Verif.Context
open Verif.Record

variable {S : Type}

/-! ### Entries are records built without topic and partition -/

def toOp : EntryOp → Op
  | .key bs => .key bs
  | .value bs => .value bs
  | .type t => .type t
  | .header k v => .header k v

theorem entry_eq (ops : List EntryOp) : entry ops = build (ops.map toOp) := by
  unfold entry build
  rw [List.foldl_map]
  congr 1
  funext r op
  cases op <;> rfl

theorem key_eq (ops : List EntryOp) : Record.Spec.key (ops.map toOp) = Spec.key ops := by
  unfold Record.Spec.key Spec.key
  induction ops with
  | nil => rfl
  | cons a l ih =>
    rw [List.map_cons, List.map_cons, List.flatten_cons, List.flatMap_cons, ih]
    cases a <;> rfl

theorem value_eq (ops : List EntryOp) : Record.Spec.value (ops.map toOp) = Spec.value ops := by
  unfold Record.Spec.value Spec.value
  induction ops with
  | nil => rfl
  | cons a l ih =>
    rw [List.map_cons, List.map_cons, List.flatten_cons, List.flatMap_cons, ih]
    cases a <;> rfl

theorem headers_eq (ops : List EntryOp) : Record.Spec.headers (ops.map toOp) = Spec.headers ops := by
  unfold Record.Spec.headers Spec.headers
  rw [List.filterMap_map]
  apply List.filterMap_congr
  intro a _
  cases a <;> rfl

theorem type_eq (ops : List EntryOp) : Record.Spec.type (ops.map toOp) = Spec.type ops := by
  unfold Record.Spec.type Spec.type
  rw [List.filterMap_map]
  congr 2
  apply List.filterMap_congr
  intro a _
  cases a <;> rfl

/-- The record of an entry after `RecordChange` is that of a builder that also sets topic and partition. -/
theorem recorded_eq (ops : List EntryOp) (t : Bytes) (p : BitVec 32) :
    withPartition (withTopic (entry ops) t) p = build (ops.map toOp ++ [.topic t, .partition p]) := by
  rw [entry_eq]
  unfold build
  rw [List.foldl_append]
  rfl

theorem recordChange_eq (ec : ECtx S) (h : ec.changeLog.topic ≠ []) (calls entries : List Rec) :
    recordChange ec calls entries =
      calls ++ entries.map fun r => withPartition (withTopic r ec.changeLog.topic) ec.topicPartition.partition := by
  have hl : ec.changeLog.topic.length > 0 := List.length_pos_iff.2 h
  unfold recordChange
  induction entries generalizing calls with
  | nil => simp
  | cons a l ih => rw [List.foldl_cons, if_pos hl, ih]; simp

/-- **C78** (changes). `RecordChange` hands over one record per entry, in order: with the topic of the change log, the partition of the event, and the key,
value, headers and type that the application gave it. -/
theorem C78_change (ec : ECtx S) (h : ec.changeLog.topic ≠ []) (calls : List Rec) (es : List (List EntryOp)) :
    ∃ new, recordChange ec calls (es.map entry) = calls ++ new ∧ new.length = es.length ∧
      ∀ (j : Nat) (r : Rec) (ops : List EntryOp), new[j]? = some r → es[j]? = some ops →
        Spec.expected ec.changeLog.topic ec.topicPartition.partition ops (toKafkaRecord r).kRecord := by
  refine ⟨_, recordChange_eq ec h _ _, by simp, ?_⟩
  intro j r ops hr ho
  rw [List.getElem?_map, List.getElem?_map, ho] at hr
  simp only [Option.map_some, Option.some.injEq] at hr
  subst hr
  rw [recorded_eq]
  have hk : Record.Spec.key (ops.map toOp ++ [.topic ec.changeLog.topic, .partition ec.topicPartition.partition]) = Spec.key ops := by
    rw [← key_eq]; simp [Record.Spec.key]
  have hv : Record.Spec.value (ops.map toOp ++ [.topic ec.changeLog.topic, .partition ec.topicPartition.partition]) = Spec.value ops := by
    rw [← value_eq]; simp [Record.Spec.value]
  have hh : Record.Spec.headers (ops.map toOp ++ [.topic ec.changeLog.topic, .partition ec.topicPartition.partition]) = Spec.headers ops := by
    rw [← headers_eq]; simp [Record.Spec.headers]
  have ht : Record.Spec.type (ops.map toOp ++ [.topic ec.changeLog.topic, .partition ec.topicPartition.partition]) = Spec.type ops := by
    rw [← type_eq]; simp [Record.Spec.type]
  have h1 := C48_fields_arrive (ops.map toOp ++ [.topic ec.changeLog.topic, .partition ec.topicPartition.partition])
  have h2 := C48_headers_exact (ops.map toOp ++ [.topic ec.changeLog.topic, .partition ec.topicPartition.partition])
  dsimp only at h1
  rw [hk, hv] at h1
  rw [hh, ht] at h2
  refine ⟨?_, ?_, h1.2.2.1, h1.2.2.2, ?_⟩
  · rw [h1.1]; simp [Record.Spec.topic]
  · rw [h1.2.1]; simp [Record.Spec.partition]
  · rw [h2]
    have hcount : Record.Spec.typeCount (Spec.headers ops) = 0 ↔ ∀ h ∈ Spec.headers ops, h.key ≠ ascii "__grt__" := by
      unfold Record.Spec.typeCount
      rw [List.length_eq_zero_iff, List.filter_eq_nil_iff]
      simp
    by_cases hc : Spec.type ops ≠ [] ∧ ∀ h ∈ Spec.headers ops, h.key ≠ ascii "__grt__"
    · rw [if_pos hc, if_pos ⟨hc.1, hcount.2 hc.2⟩]
    · rw [if_neg hc, if_neg (fun hq => hc ⟨hq.1, hcount.1 hq.2⟩), List.append_nil]

/-- Two entries of an event of partition 3; the second has a type. -/
example : recordChange (newEventContext false { topic := ascii "in", partition := 3, offset := 17 } (⟨(), ascii "log"⟩ : ChangeLog Unit)) []
    ([[.key [ascii "a"], .value [ascii "1", ascii "2"]], [.type (ascii "t"), .key [ascii "b"]]].map entry) =
    [{ keyBuffer := ascii "a", valueBuffer := ascii "12", kRecord := { topic := ascii "log", partition := 3 } },
     { keyBuffer := ascii "b", recordType := ascii "t", kRecord := { topic := ascii "log", partition := 3 } }] := by decide

/-- **C78** (right partition). Whatever default partitioner and per-topic partitioners the client has, a change of an event goes to the partition of the
change log that has the number of the partition of the event: the one from which the store of that partition is restored. -/
theorem C78_partition (cancelled : Bool) (k : KRecord) (cl : ChangeLog S) (h : cl.topic ≠ []) (hp : k.partition ≠ BitVec.ofInt 32 (-1))
    (es : List (List EntryOp)) (d : Partitioner) (m : List (Bytes × Partitioner)) (n : Nat) :
    ∀ r ∈ recordChange (newEventContext cancelled k cl) [] (es.map entry),
      (newOptionalPerTopic d m).partition cl.topic (toKafkaRecord r).kRecord n = k.partition.toInt := by
  intro r hr
  have hcl : (newEventContext cancelled k cl).changeLog = cl := rfl
  have htp : (newEventContext cancelled k cl).topicPartition.partition = k.partition := by
    unfold newEventContext
    dsimp only
    rw [newIncoming_kRecord]
  rw [recordChange_eq _ (by rw [hcl]; exact h), List.nil_append] at hr
  obtain ⟨r', hr', rfl⟩ := List.mem_map.1 hr
  obtain ⟨ops, -, rfl⟩ := List.mem_map.1 hr'
  rw [htp, recorded_eq, hcl]
  have h1 := C51_manual_partition d m (ops.map toOp ++ [.topic cl.topic, .partition k.partition]) n (by simpa [Record.Spec.partition] using hp)
  simpa [Record.Spec.partition, Record.Spec.topic] using h1
where
  newIncoming_kRecord {k : KRecord} : (newIncoming k).kRecord = k := by
    unfold newIncoming
    have : ∀ (hs : List Header) (r : Incoming), (hs.foldl (fun r h =>
        if h.key = recordTypeHeaderKey then { r with recordType := h.value } else r) r).kRecord = r.kRecord := by
      intro hs
      induction hs with
      | nil => intro r; rfl
      | cons a l ih => intro r; rw [List.foldl_cons, ih]; split <;> rfl
    exact this _ _

/-- **C78** (stateless). Without a change log nothing is produced for changes. -/
theorem C78_stateless (ec : ECtx S) (h : ec.changeLog.topic = []) (calls entries : List Rec) : recordChange ec calls entries = calls := by
  unfold recordChange
  induction entries generalizing calls with
  | nil => rfl
  | cons a l ih => rw [List.foldl_cons, h, if_neg (by simp)]; rw [h] at ih; exact ih _

/-- **C78** (outputs). `Forward` hands over the records as they are, in order; several calls in the order of the calls. -/
theorem C78_forward (calls : List Rec) (rss : List (List Rec)) : rss.foldl forward calls = calls ++ rss.flatten := by
  have h1 : ∀ (rs calls : List Rec), forward calls rs = calls ++ rs := by
    intro rs
    unfold forward
    induction rs with
    | nil => simp
    | cons a l ih => intro calls; rw [List.foldl_cons, ih]; simp
  induction rss generalizing calls with
  | nil => simp
  | cons a l ih => rw [List.foldl_cons, ih, h1]; simp

/-- **C78** (identity). The context of a fetched record says what the record is; that of an interjection is recognisable, has offset −1 and the partition
it was made for; both have the store of their partition. -/
theorem C78_identity (cancelled : Bool) (k : KRecord) (cl : ChangeLog S) (tp : TopicPartition) :
    let e := newEventContext cancelled k cl
    let i := newInterjectionContext cancelled tp cl
    (e.isInterjection = false ∧ e.offset = k.offset ∧ e.topicPartition = ⟨k.partition, k.topic⟩ ∧ e.inputOf = (newIncoming k, true) ∧
      e.inputOf.1.kRecord = k ∧ e.isRevoked = some cancelled ∧ e.store = cl.store) ∧
    (i.isInterjection = true ∧ i.offset = -1 ∧ i.topicPartition = tp ∧ i.inputOf.2 = false ∧ i.isRevoked = some cancelled ∧ i.store = cl.store) := by
  have hk := C78_partition.newIncoming_kRecord (k := k)
  refine ⟨⟨rfl, ?_, ?_, rfl, hk, rfl, rfl⟩, rfl, rfl, rfl, rfl, rfl, rfl⟩
  · show (newIncoming k).kRecord.offset = _
    rw [hk]
  · show (⟨(newIncoming k).kRecord.partition, (newIncoming k).kRecord.topic⟩ : TopicPartition) = _
    rw [hk]

/-- **C78** (round trip). An entry made with a codec that encodes the item, with whatever key, type and headers, comes back to `ReceiveChange` with a value
that the codec decodes to the item. -/
theorem C78_roundtrip {T : Type} (c : Codec T) (x : T) (hc : c.decode (c.encode x).1 = some x) (ops : List EntryOp)
    (hv : ∀ op ∈ ops, ∀ bs, op ≠ .value bs) (ec : ECtx S) (h : ec.changeLog.topic ≠ []) :
    ∃ r, recordChange ec [] [ops.foldl EntryOp.exec (createEntry c x).1] = [r] ∧
      c.decode ((newIncoming (toKafkaRecord r).kRecord).kRecord.value.getD []) = some x ∧
      (newIncoming (toKafkaRecord r).kRecord).kRecord.key = Spec.key ops := by
  have he : ops.foldl EntryOp.exec (createEntry c x).1 = entry (.value [(c.encode x).1] :: ops) := rfl
  obtain ⟨new, h1, h2, h3⟩ := C78_change ec h [] [.value [(c.encode x).1] :: ops]
  rw [he]
  rw [List.nil_append] at h1
  obtain ⟨r, rfl⟩ := List.length_eq_one_iff.1 h2
  refine ⟨r, h1, ?_⟩
  obtain ⟨-, -, q1, q2, -⟩ := h3 0 r _ rfl rfl
  rw [C78_partition.newIncoming_kRecord, q1, q2]
  have hval : Spec.value (.value [(c.encode x).1] :: ops) = (c.encode x).1 := by
    have h0 : Spec.value ops = [] := by
      unfold Spec.value
      rw [List.flatMap_eq_nil_iff]
      intro op hop
      cases op with
      | value bs => exact absurd rfl (hv _ hop bs)
      | _ => rfl
    show [(c.encode x).1].flatten ++ Spec.value ops = _
    rw [h0]; simp
  rw [hval]
  refine ⟨?_, rfl⟩
  split
  · rename_i h0; rw [h0] at hc; exact hc
  · exact hc

/-- The string codec (`streams/codec.go:152-164`). -/
def stringCodec : Codec Bytes := ⟨fun s => (s, false), fun b => some b⟩

example : ∃ r, recordChange (newInterjectionContext false ⟨2, ascii "in"⟩ (⟨(), ascii "log"⟩ : ChangeLog Unit)) []
    [[EntryOp.key [ascii "k"], .type (ascii "t")].foldl EntryOp.exec (createEntry stringCodec (ascii "v")).1] = [r] ∧
    (toKafkaRecord r).kRecord =
      { topic := ascii "log", partition := 2, key := ascii "k", value := some (ascii "v"), headers := [⟨ascii "__grt__", ascii "t"⟩] } :=
  ⟨_, rfl, by decide⟩

/-- A store that decodes the value of a change and applies it; on an error it stays as it is. -/
def decodingStore {T : Type} (c : Codec T) (apply : S → Bytes → T → S) (s : S) (i : Incoming) : S × Bool :=
  match c.decode (i.kRecord.value.getD []) with
  | some x => (apply s i.kRecord.key x, false)
  | none => (s, true)

/-- **C78** (restored). The store that receives the changes of an event, in the order in which they were recorded, ends up where the changes themselves
lead, without errors. -/
theorem C78_restored {T : Type} (c : Codec T) (apply : S → Bytes → T → S) (items : List (Bytes × T))
    (hc : ∀ x ∈ items, c.decode (c.encode x.2).1 = some x.2) (ec : ECtx S) (h : ec.changeLog.topic ≠ []) (cl : ChangeLog S) :
    (recordChange ec [] (items.map fun x => EntryOp.exec (createEntry c x.2).1 (.key [x.1]))).foldl
        (fun acc r => ((receiveChange (decodingStore c apply) acc.1 (toKafkaRecord r).kRecord).1,
          acc.2 || (receiveChange (decodingStore c apply) acc.1 (toKafkaRecord r).kRecord).2)) (cl, false) =
      ({ cl with store := items.foldl (fun s x => apply s x.1 x.2) cl.store }, false) := by
  rw [recordChange_eq ec h, List.nil_append]
  induction items generalizing cl with
  | nil => rfl
  | cons x l ih =>
    obtain ⟨r, h1, h2, h3⟩ := C78_roundtrip c x.2 (hc x (by simp)) [.key [x.1]] (by simp) ec h
    rw [recordChange_eq ec h, List.nil_append, List.map_singleton] at h1
    simp only [List.foldl_cons, List.foldl_nil, List.cons.injEq, and_true] at h1
    have hk : Spec.key [.key [x.1]] = x.1 := by simp [Spec.key]
    rw [hk] at h3
    have hrec : receiveChange (decodingStore c apply) cl (toKafkaRecord r).kRecord = ({ cl with store := apply cl.store x.1 x.2 }, false) := by
      unfold receiveChange decodingStore
      rw [h2, h3]
    rw [List.map_cons, List.map_cons, List.foldl_cons, h1, hrec]
    have := ih (fun y hy => hc y (by simp [hy])) { cl with store := apply cl.store x.1 x.2 }
    rw [List.foldl_cons]
    exact this

example : ∀ x ∈ [(ascii "k", ascii "v"), (ascii "k", ascii "w"), (ascii "l", [])], stringCodec.decode (stringCodec.encode x.2).1 = some x.2 := by decide

/-- **C78** (bad entries). A change that the store cannot decode is reported as an error, the store and the topic stay as they are, and the changes after it
are applied as if it were not there. -/
theorem C78_bad_entry {T : Type} (c : Codec T) (apply : S → Bytes → T → S) (pre post : List KRecord) (bad : KRecord)
    (h : c.decode (bad.value.getD []) = none) (cl : ChangeLog S) :
    let go := fun (acc : ChangeLog S × List Bool) k =>
      ((receiveChange (decodingStore c apply) acc.1 k).1, acc.2 ++ [(receiveChange (decodingStore c apply) acc.1 k).2])
    ((pre ++ bad :: post).foldl go (cl, [])).1 = ((pre ++ post).foldl go (cl, [])).1 ∧
      ((pre ++ bad :: post).foldl go (cl, [])).2[pre.length]? = some true := by
  intro go
  have hlen : ∀ (l : List KRecord) acc, (l.foldl go acc).2.length = acc.2.length + l.length := by
    intro l
    induction l with
    | nil => intro acc; rfl
    | cons a l ih => intro acc; rw [List.foldl_cons, ih]; simp [go]; omega
  have hpre : ∀ (l : List KRecord) acc, ∃ t, (l.foldl go acc).2 = acc.2 ++ t := by
    intro l
    induction l with
    | nil => intro acc; exact ⟨[], by simp⟩
    | cons a l ih =>
      intro acc
      obtain ⟨t, ht⟩ := ih (go acc a)
      exact ⟨_, by rw [List.foldl_cons, ht]; simp only [go]; rw [List.append_assoc]⟩
  have hfst : ∀ (l : List KRecord) acc acc', acc.1 = acc'.1 → (l.foldl go acc).1 = (l.foldl go acc').1 := by
    intro l
    induction l with
    | nil => intro _ _ h; exact h
    | cons a l ih => intro acc acc' h; exact ih _ _ (by simp only [go]; rw [h])
  have hbad : ∀ x : ChangeLog S, receiveChange (decodingStore c apply) x bad = (x, true) := by
    intro x
    unfold receiveChange decodingStore
    rw [C78_partition.newIncoming_kRecord, h]
  constructor
  · rw [List.foldl_append, List.foldl_append, List.foldl_cons]
    refine hfst _ _ _ ?_
    simp only [go]; rw [hbad]
  · rw [List.foldl_append, List.foldl_cons]
    obtain ⟨t, ht⟩ := hpre post (go (pre.foldl go (cl, [])) bad)
    rw [ht]
    have hl := hlen pre (cl, [])
    simp only [List.length_nil, Nat.zero_add] at hl
    simp only [go]
    rw [hbad, List.append_assoc, List.getElem?_append_right (by rw [← hl]; exact Nat.le_refl _)]
    have : pre.length - (List.foldl go (cl, []) pre).2.length = 0 := by omega
    simp only [go] at this
    rw [this]; rfl

/-- A codec for single bytes: other lengths are errors. -/
def byteCodec : Codec (BitVec 8) := ⟨fun b => ([b], false), fun l => match l with | [b] => some b | _ => none⟩

example : byteCodec.decode ((some (ascii "ab")).getD []) = none ∧ byteCodec.decode (ascii "a") ≠ none := by decide

/-- An item that is put into the change log is not taken for a deletion: its entry is not a tombstone. -/
def NoTombstone {T : Type} (c : Codec T) : Prop := ∀ x, (toKafkaRecord (createEntry c x).1).kRecord.value ≠ none

/-- **C78** (tombstones, partial). The entry of an item is a tombstone exactly if its encoding is empty. Missing: items with an empty encoding, see
`C78_violated_tombstone`. -/
theorem C78_tombstone_partial {T : Type} (c : Codec T) (x : T) :
    (toKafkaRecord (createEntry c x).1).kRecord.value = none ↔ (c.encode x).1 = [] := by
  have h1 := (C48_fields_arrive [.value [(c.encode x).1]]).2.2.2
  have h2 : (createEntry c x).1 = build [.value [(c.encode x).1]] := rfl
  have h3 : Record.Spec.value [.value [(c.encode x).1]] = (c.encode x).1 := by simp [Record.Spec.value]
  rw [h2, h1, h3]
  split <;> simp [*]

/-- **C78** is violated: with the string codec and the byte codec of the library the empty item is produced as a tombstone, so that log compaction drops
it, and stores take it for a deletion. -/
theorem C78_violated_tombstone : ¬ NoTombstone stringCodec := fun h => h [] ((C78_tombstone_partial stringCodec []).2 rfl)

/-- The mock contexts behave like the contexts they stand for: `MockEventContext` like the context of the produced record when it is consumed, and
`MockInterjectionEventContext` like the context of an interjection. -/
def MocksFaithful : Prop := ∀ (cancelled : Bool) (ops : List Op) (t : Bytes) (tp : TopicPartition),
  (mockEventContext cancelled (build ops) t ()).inputOf =
    (newEventContext cancelled (toKafkaRecord (build ops)).kRecord (⟨(), t⟩ : ChangeLog Unit)).inputOf ∧
  (mockInterjectionContext cancelled tp t ()).isRevoked = (newInterjectionContext cancelled tp (⟨(), t⟩ : ChangeLog Unit)).isRevoked

/-- **C78** is violated for the mocks: the input of a mock context lacks the topic, the partition and the headers of the record, and the context given to
`MockInterjectionEventContext` is dropped, so that asking whether the partition is revoked dereferences nil. -/
theorem C78_violated_mocks : ¬ MocksFaithful ∧
    (∃ ops, (mockEventContext false (build ops) [] ()).inputOf.1.kRecord.headers ≠ Record.Spec.headers ops) ∧
    (∃ ops, (mockEventContext false (build ops) [] ()).inputOf.1.kRecord.partition ≠ (mockEventContext false (build ops) [] ()).topicPartition.partition) ∧
    ∀ cancelled tp t, (mockInterjectionContext cancelled tp t ()).isRevoked = none := by
  refine ⟨fun h => ?_, ⟨[.header [1] [2]], by decide⟩, ⟨[.partition 3], by decide⟩, fun _ _ _ => rfl⟩
  have := (h true [] [] ⟨0, []⟩).2
  exact absurd this (by decide)

/-- **C78** (mock interjections, partial). Apart from the question whether the partition is revoked, the mock context of an interjection answers like the
real one: it is an interjection without offset and input, with its own topic and partition and store, and its changes go where those of the real context
go. Missing: `isRevoked`, see `C78_violated_mocks`. -/
theorem C78_mock_interjection_partial (cancelled : Bool) (tp : TopicPartition) (t : Bytes) (st : S) (calls entries : List Rec) :
    let e := mockInterjectionContext cancelled tp t st
    let k := newInterjectionContext cancelled tp (⟨st, t⟩ : ChangeLog S)
    e.isInterjection = true ∧ k.isInterjection = true ∧ e.offset = -1 ∧ k.offset = -1 ∧ e.inputOf = k.inputOf ∧ e.inputOf.2 = false ∧
    e.topicPartition = tp ∧ k.topicPartition = tp ∧ e.store = st ∧ k.store = st ∧ recordChange e calls entries = recordChange k calls entries :=
  ⟨rfl, rfl, rfl, rfl, rfl, rfl, rfl, rfl, rfl, rfl, rfl⟩

/-- **C78** (mocks, partial). A mock context does have the key, the value and the type of its record and the right topic and partition of its own, and its
changes go where those of the real context go. Missing: the rest of the input, see `C78_violated_mocks`. -/
theorem C78_mock_partial (cancelled : Bool) (ops : List Op) (t : Bytes) (st : S) (calls entries : List Rec) :
    let e := mockEventContext cancelled (build ops) t st
    let k := (toKafkaRecord (build ops)).kRecord
    e.inputOf.1.kRecord.key = k.key ∧ e.inputOf.1.kRecord.value = k.value ∧ e.inputOf.1.recordType = Record.Spec.type ops ∧ e.inputOf.2 = true ∧
    e.topicPartition = ⟨k.partition, k.topic⟩ ∧
    recordChange e calls entries = recordChange (newEventContext cancelled k ⟨st, t⟩) calls entries := by
  have h1 := C50_toKafkaRecord_partial ops
  have h2 := C48_fields_arrive ops
  dsimp only at h2 ⊢
  have htp : (mockEventContext cancelled (build ops) t st).topicPartition =
      ⟨(toKafkaRecord (build ops)).kRecord.partition, (toKafkaRecord (build ops)).kRecord.topic⟩ := by
    rw [h2.1, h2.2.1]
    unfold mockEventContext toKafkaRecordPublic
    dsimp only
    rw [build_fields]
    unfold addRecordTypeHeader
    dsimp only
    split
    · rfl
    · split <;> rfl
  refine ⟨?_, ?_, h1.2.2, rfl, htp, ?_⟩
  · rw [h2.2.2.1]; exact h1.1
  · rw [h2.2.2.2]; exact h1.2.1
  · unfold recordChange
    rw [htp]
    have hq : (newEventContext cancelled (toKafkaRecord (build ops)).kRecord (⟨st, t⟩ : ChangeLog S)).topicPartition.partition =
        (toKafkaRecord (build ops)).kRecord.partition := by
      show (newIncoming _).kRecord.partition = _
      rw [C78_partition.newIncoming_kRecord]
    rw [hq]
    rfl

end Verif.Context
