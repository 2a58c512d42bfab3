import Verif.Record.Proofs
/-
Properties C48, C49, C50, C51 and the classification part of C15 (`streams/record.go`,
`streams/topics.go`).
-/
set_option linter.unusedSimpArgs false

namespace Verif.Record

/-! ### C48 — the record type survives the trip -/

/-- C48. For every sequence of builder calls, the consumer that receives the produced record is
routed by: the value of the last explicit type header if the user added one, otherwise the record
type set with `WithRecordType` (empty if never set). -/
theorem C48_type_survives (ops : List Op) :
    (newIncoming (toKafkaRecord (build ops)).kRecord).recordType
      = (Spec.lastType (Spec.headers ops)).getD (Spec.type ops) := by
  rw [newIncoming_eq, build_fields]
  unfold toKafkaRecord
  dsimp only
  rw [apply_ite Rec.kRecord, apply_ite Rec.recordType]
  unfold addRecordTypeHeader
  have hany := any_iff_lastType (Spec.headers ops)
  generalize hh : Spec.headers ops = hs at *
  generalize ht : Spec.type ops = t at *
  have key : ∀ k : KRecord, k.headers = hs →
      (Spec.lastType (if t.length = 0 then k
        else if (k.headers.any fun h => h.key == recordTypeHeaderKey) = true then k
        else { k with headers := k.headers ++ [⟨recordTypeHeaderKey, t⟩] }).headers).getD []
      = (Spec.lastType hs).getD t := by
    intro k hk
    split
    · rename_i h0
      rw [hk, List.length_eq_zero_iff.mp h0]
    · rw [hk]
      split
      · rename_i h1
        have := hany.mp h1
        rw [hk]
        cases hl : Spec.lastType hs with
        | none => exact absurd hl this
        | some v => rfl
      · rename_i h1
        have hn : Spec.lastType hs = none := by
          apply Classical.byContradiction
          intro hc
          exact h1 (hany.mpr hc)
        rw [hn]
        simp [Spec.lastType, recordTypeHeaderKey]
  split <;> exact key _ rfl

/-- C48. Producing never adds a second type header, and user headers are kept in order: the produced
header list is the user's list, followed by one type header exactly when a type was set and the user
gave no explicit type header. -/
theorem C48_headers_exact (ops : List Op) :
    (toKafkaRecord (build ops)).kRecord.headers
      = if Spec.type ops ≠ [] ∧ Spec.typeCount (Spec.headers ops) = 0
        then Spec.headers ops ++ [⟨ascii "__grt__", Spec.type ops⟩] else Spec.headers ops := by
  rw [build_fields]
  unfold toKafkaRecord addRecordTypeHeader
  dsimp only
  generalize Spec.headers ops = hs
  generalize Spec.type ops = t
  have hany : (hs.any fun h => h.key == recordTypeHeaderKey) = true ↔ ¬ Spec.typeCount hs = 0 := by
    simp only [List.any_eq_true, beq_iff_eq, Spec.typeCount, List.length_eq_zero_iff,
      List.filter_eq_nil_iff, decide_eq_true_eq, recordTypeHeaderKey]
    constructor
    · rintro ⟨h, hm, hk⟩ hall
      exact hall h hm hk
    · intro hall
      apply Classical.byContradiction
      intro hc
      exact hall fun h hm hk => hc ⟨h, hm, hk⟩
  have key : ∀ k : KRecord, k.headers = hs →
      (if t.length = 0 then k
        else if (k.headers.any fun h => h.key == recordTypeHeaderKey) = true then k
        else { k with headers := k.headers ++ [⟨recordTypeHeaderKey, t⟩] }).headers
      = if t ≠ [] ∧ Spec.typeCount hs = 0 then hs ++ [⟨ascii "__grt__", t⟩] else hs := by
    intro k hk
    by_cases h0 : t = []
    · simp [h0, hk]
    · rw [if_neg (by simpa using h0), hk]
      by_cases h1 : Spec.typeCount hs = 0
      · rw [if_neg (fun h => hany.mp h h1), if_pos ⟨h0, h1⟩]
        rfl
      · rw [if_pos (hany.mpr h1), if_neg (fun h => h1 h.2), hk]
  split <;> exact key _ rfl

/-- C48. All other fields arrive as built; an empty value is sent as a tombstone (nil). -/
theorem C48_fields_arrive (ops : List Op) :
    let k := (toKafkaRecord (build ops)).kRecord
    k.topic = Spec.topic ops ∧ k.partition = Spec.partition ops ∧ k.key = Spec.key ops ∧
      k.value = (if Spec.value ops = [] then none else some (Spec.value ops)) := by
  rw [build_fields]
  unfold toKafkaRecord addRecordTypeHeader
  dsimp only
  by_cases hv : Spec.value ops = []
  · simp only [hv, List.length_nil, gt_iff_lt, Nat.lt_irrefl, ite_false, ite_true]
    split
    · simp
    · split <;> simp
  · have : (Spec.value ops).length > 0 := List.length_pos_iff.mpr hv
    simp only [this, ite_true, hv, ite_false]
    split
    · simp
    · split <;> simp

/-- C48. Converting twice is the same as converting once (a record may be retried). -/
theorem C48_idempotent (ops : List Op) :
    toKafkaRecord (toKafkaRecord (build ops)) = toKafkaRecord (build ops) := by
  unfold toKafkaRecord
  dsimp only
  generalize build ops = r
  obtain ⟨kb, vb, k, t, e⟩ := r
  obtain ⟨topic, part, key, value, headers, offset⟩ := k
  unfold addRecordTypeHeader
  dsimp only
  by_cases hv : vb.length > 0 <;> by_cases ht : t.length = 0 <;>
    by_cases ha : (headers.any fun h => h.key == recordTypeHeaderKey) = true <;>
    simp [hv, ht, ha]

/-- `SetRecordType` on a raw Kafka record decides the route whatever headers were there before, and changes nothing else: the other headers, the key, the value and
the place are the same. -/
theorem C48_setRecordType (k : KRecord) (t : Bytes) : (newIncoming (setRecordType k t)).recordType = t ∧
    (∀ name, name ≠ recordTypeHeaderKey → headerValue (newIncoming (setRecordType k t)) name = headerValue (newIncoming k) name) ∧
    k.headers <+: (setRecordType k t).headers ∧ { setRecordType k t with headers := k.headers } = k := by
  refine ⟨?_, ?_, List.prefix_append _ _, rfl⟩
  · rw [newIncoming_eq]
    simp [setRecordType, Spec.lastType, recordTypeHeaderKey]
  · intro name hne
    rw [newIncoming_eq, newIncoming_eq]
    have : (recordTypeHeaderKey == name) = false := by simpa using Ne.symm hne
    simp [headerValue, setRecordType, List.find?_append, List.find?_cons, this]

/-- A second type overrides the first one, the other header is still there. -/
example : (newIncoming (setRecordType { headers := [⟨ascii "x", [1]⟩, ⟨recordTypeHeaderKey, ascii "a"⟩] } (ascii "b"))).recordType = ascii "b" ∧
    headerValue (newIncoming (setRecordType { headers := [⟨ascii "x", [1]⟩] } (ascii "b"))) (ascii "x") = some [1] := by decide

example : (newIncoming (toKafkaRecord (build
    [.type (ascii "order"), .header (ascii "x") [1], .key [ascii "k"]])).kRecord).recordType = ascii "order" := by
  decide

/-! ### C49 — recycled records are pristine -/

/-- State of the record pool together with the records users hold (`streams/record.go:52-82`;
the free list itself is `streams/sak/pool.go:34-67`): the free list is a stack of records that were
reset on release. `cap` is the capacity of the pool. -/
structure RPool where
  cap : Nat
  free : List Rec

/-- Calls on the pool: `NewRecord` and `Release`. Between the calls users change their records
arbitrarily, so `Release` takes an arbitrary record. -/
inductive PoolCall
  | newRecord
  | release (r : Rec)

/-- `Borrow` pops the last free item or allocates (`streams/sak/pool.go:44-54`), `Release` resets and
pushes unless the pool is full (`streams/sak/pool.go:56-66`). Returns the record given out, if any. -/
def RPool.call (p : RPool) : PoolCall → RPool × Option Rec
  | .newRecord => match p.free with
    | [] => (p, some alloc)
    | r :: rest => ({ p with free := rest }, some r)
  | .release r => if p.free.length < p.cap then ({ p with free := reset r :: p.free }, none) else (p, none)

/-- All records given out by a sequence of calls. -/
def RPool.run (p : RPool) : List PoolCall → List Rec
  | [] => []
  | c :: cs => (p.call c).2.toList ++ (p.call c).1.run cs

/-- C49. Whatever users did with earlier records, every record given out by `NewRecord` equals a
newly allocated one. -/
theorem C49_newRecord_pristine (cap : Nat) (calls : List PoolCall) (r : Rec)
    (h : r ∈ ({ cap := cap, free := [] } : RPool).run calls) : r = alloc := by
  have gen : ∀ (calls : List PoolCall) (p : RPool), (∀ x ∈ p.free, x = alloc) →
      ∀ r ∈ p.run calls, r = alloc := by
    intro calls
    induction calls with
    | nil => intro p _ r hr; simp [RPool.run] at hr
    | cons c cs ih =>
      intro p hp r hr
      simp only [RPool.run, List.mem_append, Option.mem_toList] at hr
      cases c with
      | newRecord =>
        unfold RPool.call at hr
        cases hf : p.free with
        | nil =>
          rw [hf] at hr
          rcases hr with hr | hr
          · simpa using hr.symm
          · exact ih p hp r hr
        | cons x rest =>
          rw [hf] at hr
          rcases hr with hr | hr
          · have : x = r := by simpa using hr
            rw [← this]
            exact hp x (by rw [hf]; simp)
          · exact ih _ (fun y hy => hp y (by rw [hf]; simp at hy; simp [hy])) r hr
      | release x =>
        unfold RPool.call at hr
        by_cases hl : p.free.length < p.cap
        · simp only [hl, ite_true] at hr
          rcases hr with hr | hr
          · simp at hr
          · refine ih _ ?_ r hr
            intro y hy
            simp only [List.mem_cons] at hy
            rcases hy with hy | hy
            · rw [hy]; rfl
            · exact hp y hy
        · simp only [hl, ite_false] at hr
          rcases hr with hr | hr
          · simp at hr
          · exact ih p hp r hr
  exact gen calls _ (by simp) r h

example : ({ cap := 2, free := [] } : RPool).run
    [.newRecord, .release (build [.type [1], .header [2] [3], .partition 7]), .newRecord] = [alloc, alloc] := by
  decide

/-! ### C50 — public conversion -/

/-- The full claim of C50 for one record: the returned Kafka record carries what was built. -/
def KeepsEverything (ops : List Op) : Prop :=
  let k := (toKafkaRecordPublic (build ops)).1
  k.topic = Spec.topic ops ∧ k.partition = Spec.partition ops ∧ k.key = Spec.key ops ∧
    k.value.getD [] = Spec.value ops ∧ (∀ h ∈ Spec.headers ops, h ∈ k.headers) ∧
    (newIncoming k).recordType = (Spec.lastType (Spec.headers ops)).getD (Spec.type ops)

/-- C50 is violated: topic, partition, headers and record type are dropped. -/
theorem C50_violated : ¬ ∀ ops, KeepsEverything ops := by
  intro h
  have := (h [.topic [1]]).1
  exact absurd this (by decide)

/-- C50 is violated in every component other than key and value, each by its own witness. -/
theorem C50_violated_components :
    (∃ ops, (toKafkaRecordPublic (build ops)).1.topic ≠ Spec.topic ops) ∧
    (∃ ops, Spec.partition ops = 3 ∧ (toKafkaRecordPublic (build ops)).1.partition ≠ 3) ∧
    (∃ ops h, h ∈ Spec.headers ops ∧ h ∉ (toKafkaRecordPublic (build ops)).1.headers) ∧
    (∃ ops, (newIncoming (toKafkaRecordPublic (build ops)).1).recordType ≠ Spec.type ops) :=
  ⟨⟨[.topic [1]], by decide⟩, ⟨[.partition 3], by decide, by decide⟩,
   ⟨[.header [1] [2]], ⟨[1], [2]⟩, by decide, by decide⟩, ⟨[.type [1]], by decide⟩⟩

/-- C50, the part that holds: key and value are copied; an `IncomingRecord` made with
`AsIncomingRecord` also keeps the type set with `WithRecordType`. Missing: topic, partition, headers. -/
theorem C50_toKafkaRecord_partial (ops : List Op) :
    (toKafkaRecordPublic (build ops)).1.key = Spec.key ops ∧
    (toKafkaRecordPublic (build ops)).1.value = (if Spec.value ops = [] then none else some (Spec.value ops)) ∧
    (asIncoming (build ops)).recordType = Spec.type ops := by
  rw [build_fields]
  unfold asIncoming toKafkaRecordPublic
  dsimp only
  by_cases hk : Spec.key ops = [] <;> by_cases hv : Spec.value ops = []
  · simp [hk, hv]
  · have := List.length_pos_iff.mpr hv
    simp [hk, hv, this]
  · have := List.length_pos_iff.mpr hk
    simp [hk, hv, this]
  · have hk' := List.length_pos_iff.mpr hk
    have := List.length_pos_iff.mpr hv
    simp [hk, hv, *]

/-! ### C51 — manual partitions -/

/-- C51. A record built with an explicit partition (other than the reserved -1) is sent to that
partition, for every partitioner configuration, topic and partition count. -/
theorem C51_manual_partition (d : Partitioner) (m : List (Bytes × Partitioner)) (ops : List Op) (n : Nat)
    (h : Spec.partition ops ≠ BitVec.ofInt 32 (-1)) :
    (newOptionalPerTopic d m).partition (Spec.topic ops) (toKafkaRecord (build ops)).kRecord n
      = (Spec.partition ops).toInt := by
  have hp := (C48_fields_arrive ops).2.1
  unfold OptionalPartitioner.partition newOptionalPerTopic
  dsimp only
  rw [hp, if_neg (by simpa [autoAssign] using h)]
  simp only [manualPartitioner, hp]

/-- C51. A record without explicit partition is partitioned by the partitioner registered for the
topic, or by the default partitioner if the topic has none. -/
theorem C51_auto_partition (d : Partitioner) (m : List (Bytes × Partitioner)) (ops : List Op) (n : Nat)
    (h : Spec.partition ops = BitVec.ofInt 32 (-1)) :
    (∀ p, m.find? (fun e => e.1 = Spec.topic ops) = some (Spec.topic ops, p) →
      (newOptionalPerTopic d m).partition (Spec.topic ops) (toKafkaRecord (build ops)).kRecord n
        = p (Spec.topic ops) (toKafkaRecord (build ops)).kRecord n) ∧
    ((∀ e ∈ m, e.1 ≠ Spec.topic ops) →
      (newOptionalPerTopic d m).partition (Spec.topic ops) (toKafkaRecord (build ops)).kRecord n
        = d (Spec.topic ops) (toKafkaRecord (build ops)).kRecord n) := by
  have hp := (C48_fields_arrive ops).2.1
  unfold OptionalPartitioner.partition newOptionalPerTopic
  dsimp only
  rw [hp, if_pos (by simpa [autoAssign] using h)]
  constructor
  · intro p hf
    have : m.find? (fun e => e.1 == Spec.topic ops) = some (Spec.topic ops, p) := by
      rw [← hf]; congr 1; funext e; exact Bool.beq_eq_decide_eq _ _
    rw [this]
  · intro hn
    have : m.find? (fun e => e.1 == Spec.topic ops) = none := by
      rw [List.find?_eq_none]
      intro e he
      simpa using hn e he
    rw [this]

example : Spec.partition [.partition 5] ≠ BitVec.ofInt 32 (-1) ∧ Spec.partition [] = BitVec.ofInt 32 (-1) := by
  decide

/-! ### C15 — recognising markers -/

/-- C15. A marker record is always recognised. -/
theorem C15_marker_recognised (tp : TopicPartition) (mark : Bytes) :
    isMarkerRecord (markerRecord tp mark) = true := by
  simp [isMarkerRecord, markerRecord]

/-- C15. A marker arrives in the partition whose end it marks, with its mark, and other than as a mark it carries nothing: the clients that send markers partition by hand. -/
theorem C15_marker_arrives (tp : TopicPartition) (mark : Bytes) (n : Nat) :
    (markerRecord tp mark).topic = tp.topic ∧ manualPartitioner tp.topic (markerRecord tp mark) n = tp.partition.toInt ∧
      (markerRecord tp mark).value = some mark ∧ (newIncoming (markerRecord tp mark)).recordType = [] :=
  ⟨rfl, rfl, rfl, by
    have : markerKey ≠ recordTypeHeaderKey := by decide
    simp [newIncoming, markerRecord, this]⟩

example : (markerRecord ⟨7#32, ascii "t"⟩ [1, 2]).partition = 7#32 ∧ (markerRecord ⟨7#32, ascii "t"⟩ [1, 2]).value = some [1, 2] := by decide

/-- C15. A record is taken for a marker exactly if it has one header and that header has the reserved
key; so a record built by a user is taken for a marker only if the user added the reserved header as
only header and set no record type. -/
theorem C15_marker_exact (ops : List Op) :
    isMarkerRecord (toKafkaRecord (build ops)).kRecord = true ↔
      Spec.type ops = [] ∧ ∃ v, Spec.headers ops = [⟨ascii "gkes__mark", v⟩] := by
  have hh := C48_headers_exact ops
  unfold isMarkerRecord
  rw [hh]
  generalize Spec.headers ops = hs
  generalize Spec.type ops = t
  by_cases h : t ≠ [] ∧ Spec.typeCount hs = 0
  · rw [if_pos h]
    have hne : ¬ (t = [] ∧ ∃ v, hs = [⟨ascii "gkes__mark", v⟩]) := fun hc => h.1 hc.1
    simp only [hne, iff_false]
    match hs with
    | [] =>
      have : ascii "__grt__" ≠ markerKey := by decide
      simpa using this
    | [_] => simp
    | _ :: _ :: _ => simp
  · rw [if_neg h]
    match hs, h with
    | [], _ => simp
    | [hd], h =>
      obtain ⟨hk, hv⟩ := hd
      simp only [beq_iff_eq, markerKey, List.cons.injEq, Header.mk.injEq, and_true]
      constructor
      · intro hm
        refine ⟨?_, hv, hm, rfl⟩
        apply Classical.byContradiction
        intro ht
        apply h
        refine ⟨ht, ?_⟩
        subst hm
        simp [Spec.typeCount]
        decide
      · rintro ⟨_, v, hm, _⟩
        exact hm
    | _ :: _ :: _, _ => simp

end Verif.Record
