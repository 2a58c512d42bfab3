import Verif.CommitLog.Model
import Verif.Props.Codec
import Verif.Props.Record
/-
Specification vocabulary and helper lemmas for the commit log.
-/
namespace Verif.CommitLog
open Verif.Codec Verif.Record

namespace Spec

/-- What a commit-log partition contains, abstractly: offset commits and synchronisation markers. -/
inductive Entry
  /-- "source partition `tp` has been processed up to and including `offset`" -/
  | commit (tp : TopicPartition) (offset : BitVec 64)
  | marker (mark : Bytes)
deriving DecidableEq, Repr

/-- The offset of the last commit for `tp` in a list of entries. -/
def lastCommit (tp : TopicPartition) : List Entry → Option (BitVec 64)
  | [] => none
  | e :: es =>
    match lastCommit tp es with
    | some o => some o
    | none => match e with
      | .commit tp' o => if tp' = tp then some o else none
      | .marker _ => none

/-- The position from which a consumer must resume: one past the last commit, or -1. -/
def resumeAt (tp : TopicPartition) (es : List Entry) : BitVec 64 :=
  match lastCommit tp es with
  | some o => o + 1
  | none => BitVec.ofInt 64 (-1)

end Spec

open Spec

/-- The Kafka record that carries an abstract entry (the producer side: `commitRecord` followed by
`toKafkaRecord`, resp. `sendMarkerMessage`). -/
def encode (logTopic : Bytes) (n q : BitVec 32) : Entry → KRecord
  | .commit tp o => (toKafkaRecord (commitRecord logTopic n tp o)).kRecord
  | .marker m => markerRecord ⟨q, logTopic⟩ m

theorem commitRecord_kafka (logTopic : Bytes) (n : BitVec 32) (tp : TopicPartition) (o : BitVec 64) :
    (toKafkaRecord (commitRecord logTopic n tp o)).kRecord =
      { topic := logTopic, partition := commitRecordPartition n tp,
        key := writeTopicPartition [] tp, value := some (writeSignedInt [] (o + 1)), headers := [], offset := 0 } := by
  have hl : (writeSignedInt [] (o + 1)).length = 8 := by
    simp [writeSignedInt, leBytes_length, intByteSize]
  have hl' : (writeSignedInt [] (o + 1)).length > 0 := by omega
  unfold toKafkaRecord commitRecord addRecordTypeHeader withPartition withTopic alloc
  dsimp only
  rw [if_pos hl']
  rfl

theorem topicPartition_roundtrip (tp : TopicPartition) :
    topicPartitionFromBytes (writeTopicPartition [] tp) = some tp := by
  have h := C45_intCodec_roundtrip 32 (by omega) tp.partition tp.topic
  simp only [writeSignedInt, List.nil_append] at h
  simp only [topicPartitionFromBytes, writeTopicPartition, List.nil_append, h]
  rw [List.drop_left' (leBytes_length _ _)]

theorem receive_commit (cl : CL) (logTopic : Bytes) (n q : BitVec 32) (tp : TopicPartition) (o : BitVec 64) :
    cl.receiveChange (encode logTopic n q (.commit tp o)) =
      some { cl with watermarks := fun p => if p = tp.partition then some (o + 1) else cl.watermarks p } := by
  have h64 : readInteger 64 (writeSignedInt [] (o + 1)) = some (o + 1) := by
    simpa using C45_intCodec_roundtrip 64 (by omega) (o + 1) []
  simp only [encode, commitRecord_kafka, CL.receiveChange, isMarkerRecord, topicPartition_roundtrip,
    Option.getD_some, h64]
  simp

theorem receive_marker (cl : CL) (logTopic : Bytes) (n q : BitVec 32) (m : Bytes) :
    cl.receiveChange (encode logTopic n q (.marker m)) = some (cl.closeSyncRequest m) := by
  simp only [encode, CL.receiveChange, C15_marker_recognised, ite_true]
  simp [markerRecord]

/-- Effect of one abstract entry. -/
def step (cl : CL) : Entry → CL
  | .commit tp o => { cl with watermarks := fun p => if p = tp.partition then some (o + 1) else cl.watermarks p }
  | .marker m => cl.closeSyncRequest m

theorem receive_encode (cl : CL) (logTopic : Bytes) (n q : BitVec 32) (e : Entry) :
    cl.receiveChange (encode logTopic n q e) = some (step cl e) := by
  cases e with
  | commit tp o => exact receive_commit ..
  | marker m => exact receive_marker ..

theorem consume_encode (cl : CL) (logTopic : Bytes) (n : BitVec 32) (reads : List (BitVec 32 × Entry)) :
    cl.consume (reads.map fun r => encode logTopic n r.1 r.2) = some (reads.foldl (fun c r => step c r.2) cl) := by
  unfold CL.consume
  induction reads generalizing cl with
  | nil => rfl
  | cons r rs ih =>
    simp only [List.map_cons, List.foldlM_cons, receive_encode, List.foldl_cons]
    exact ih _

theorem closeSync_watermarks (cl : CL) (m : Bytes) : (cl.closeSyncRequest m).watermarks = cl.watermarks := by
  unfold CL.closeSyncRequest
  split <;> rfl

theorem lastCommit_append (tp : TopicPartition) (a b : List Entry) :
    lastCommit tp (a ++ b) = (lastCommit tp b).or (lastCommit tp a) := by
  induction a with
  | nil => simp [lastCommit]
  | cons e es ih =>
    simp only [List.cons_append, lastCommit, ih]
    cases lastCommit tp b <;> simp

/-- Watermarks after reading, when all commits belong to one topic. -/
theorem watermarks_fold (topic : Bytes) (es : List Entry)
    (hT : ∀ tp o, Entry.commit tp o ∈ es → tp.topic = topic) (p : BitVec 32) :
    (es.foldl step {}).watermarks p = (lastCommit ⟨p, topic⟩ es).map (· + 1) := by
  induction es using snoc_induction with
  | h0 => rfl
  | hs es e ih =>
    have ih := ih (fun tp o h => hT tp o (by simp [h]))
    rw [List.foldl_append, lastCommit_append]
    cases e with
    | marker m => simp [step, closeSync_watermarks, ih, lastCommit]
    | commit tp o =>
      have ht := hT tp o (by simp)
      simp only [List.foldl_cons, List.foldl_nil, step, ih, lastCommit]
      obtain ⟨tpp, tpt⟩ := tp
      simp only at ht
      subst ht
      by_cases hp : p = tpp
      · simp [hp]
      · have : (⟨tpp, tpt⟩ : TopicPartition) ≠ ⟨p, tpt⟩ := by
          intro h; exact hp (by injection h with h1 _; exact h1.symm)
        simp [hp, this]

theorem foldl_map_snd (reads : List (BitVec 32 × Entry)) (cl : CL) :
    reads.foldl (fun c r => step c r.2) cl = (reads.map (·.2)).foldl step cl := by
  rw [List.foldl_map]

/-- Commits for `tp` only matter in the log partition they are routed to. -/
theorem lastCommit_project (tp : TopicPartition) (q : BitVec 32) (reads : List (BitVec 32 × Entry))
    (hr : ∀ r ∈ reads, ∀ o, r.2 = .commit tp o → r.1 = q) :
    lastCommit tp (reads.map (·.2)) = lastCommit tp ((reads.filter (·.1 = q)).map (·.2)) := by
  induction reads with
  | nil => rfl
  | cons r rs ih =>
    have ih := ih (fun r' h => hr r' (by simp [h]))
    by_cases hq : r.1 = q
    · simp only [List.filter_cons, hq, decide_true, ite_true, List.map_cons, lastCommit, ih]
    · have : ∀ o, r.2 ≠ .commit tp o := fun o h => hq (hr r (by simp) o h)
      have hf : (r :: rs).filter (·.1 = q) = rs.filter (·.1 = q) := by simp [hq]
      have happ := lastCommit_append tp [r.2] (rs.map (·.2))
      rw [List.singleton_append] at happ
      rw [hf, List.map_cons, happ, ih]
      have h1 : lastCommit tp [r.2] = none := by
        cases hr2 : r.2 with
        | marker m => rfl
        | commit tp' o =>
          have : tp' ≠ tp := by
            intro h; subst h; exact this o hr2
          simp [lastCommit, this]
      rw [h1, Option.or_none]

theorem released_fold (es : List Entry) (cl : CL) (m : Bytes) (hm : m ∉ cl.released)
    (h : m ∈ (es.foldl step cl).released) : Entry.marker m ∈ es := by
  induction es generalizing cl with
  | nil => exact absurd h hm
  | cons e es ih =>
    simp only [List.foldl_cons] at h
    by_cases hr : m ∈ (step cl e).released
    · cases e with
      | commit tp o => exact absurd hr hm
      | marker m' =>
        simp only [step, CL.closeSyncRequest] at hr
        split at hr
        · simp only [List.mem_cons] at hr
          rcases hr with rfl | hr
          · simp
          · exact absurd hr hm
        · exact absurd hr hm
    · have := ih (step cl e) hr h
      simp [this]

end Verif.CommitLog
