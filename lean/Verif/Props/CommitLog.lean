import Verif.CommitLog.Proofs
import Mathlib.Tactic.Common
import Mathlib.Data.List.Induction
/-
Properties C10 and C11 (`streams/commit_log.go`).
-/
set_option linter.unusedSimpArgs false

namespace Verif.CommitLog
open Verif.Codec Verif.Record Spec

/-! ### C11 — encoding of offset records -/

/-- C11. The record written for source partition `tp` and processed offset `o` is decoded by the
reader to the same topic, the same partition and the offset `o + 1` (the next one to consume); it is
sent to the commit-log topic and is never mistaken for a marker. -/
theorem C11_commit_record_roundtrip (logTopic : Bytes) (n : BitVec 32) (tp : TopicPartition) (o : BitVec 64) :
    let k := (toKafkaRecord (commitRecord logTopic n tp o)).kRecord
    topicPartitionFromBytes k.key = some tp ∧ readInteger 64 (k.value.getD []) = some (o + 1) ∧
      k.topic = logTopic ∧ isMarkerRecord k = false := by
  have h64 : readInteger 64 (writeSignedInt [] (o + 1)) = some (o + 1) := by
    simpa using C45_intCodec_roundtrip 64 (by omega) (o + 1) []
  simp only [commitRecord_kafka, topicPartition_roundtrip, Option.getD_some, h64, isMarkerRecord]
  simp

/-- C11. Different topic partitions never get the same key (so log compaction keeps both). -/
theorem C11_key_injective (a b : TopicPartition)
    (h : writeTopicPartition [] a = writeTopicPartition [] b) : a = b := by
  have ha := topicPartition_roundtrip a
  have hb := topicPartition_roundtrip b
  rw [h, hb] at ha
  exact (Option.some.inj ha).symm

/-- C11. For every non-negative source partition and positive number of commit-log partitions, the
commit-log partition is `p mod n`: it exists, and it is a function of the source partition alone. -/
theorem C11_log_partition_exists (n : BitVec 32) (tp : TopicPartition)
    (hp : 0 ≤ tp.partition.toInt) (hn : 0 < n.toInt) :
    (commitRecordPartition n tp).toInt = tp.partition.toInt % n.toInt ∧
      0 ≤ (commitRecordPartition n tp).toInt ∧ (commitRecordPartition n tp).toInt < n.toInt := by
  have h : (commitRecordPartition n tp).toInt = tp.partition.toInt % n.toInt := by
    unfold commitRecordPartition
    rw [BitVec.toInt_srem, Int.tmod_eq_emod_of_nonneg hp]
  rw [h]
  exact ⟨rfl, Int.emod_nonneg _ (by omega), Int.emod_lt_of_pos _ hn⟩

example : 0 ≤ (13 : BitVec 32).toInt ∧ 0 < (5 : BitVec 32).toInt ∧
    (commitRecordPartition 5 ⟨13, [1]⟩).toInt = 3 := by decide

/-! ### C10 — watermark recovery -/

/-- `reads` is a possible order in which the records of the commit-log partitions arrive: what has
arrived from partition `q` is a prefix of the log of `q`. -/
def Arrives (log : BitVec 32 → List Entry) (reads : List (BitVec 32 × Entry)) : Prop :=
  ∀ q, (reads.filter (·.1 = q)).map (·.2) <+: log q

/-- The commit log was written by this application for one source topic: every commit is in the
partition chosen by `commitRecordPartition`, and belongs to `topic`. -/
def WellRouted (topic : Bytes) (n : BitVec 32) (log : BitVec 32 → List Entry) : Prop :=
  ∀ q tp o, Entry.commit tp o ∈ log q → tp.topic = topic ∧ q = commitRecordPartition n tp

/-- C10. However the commit-log partitions are interleaved while reading, once the synchronisation
with marker `mark` has been released, the watermark of every source partition `tp` that maps to the
marker's log partition `q` equals the resume position given by a prefix of the log of `q` that
contains everything in front of the marker. Reading never crashes. -/
theorem C10_watermark_after_sync (topic logTopic : Bytes) (n : BitVec 32) (log : BitVec 32 → List Entry)
    (hw : WellRouted topic n log) (reads : List (BitVec 32 × Entry)) (ha : Arrives log reads)
    (mark : Bytes) (q : BitVec 32) (before after : List Entry)
    (hlog : log q = before ++ Entry.marker mark :: after)
    (huniq : ∀ q', Entry.marker mark ∈ log q' → q' = q) (hb : Entry.marker mark ∉ before) :
    ∃ cl, (({} : CL).registerSync mark).consume (reads.map fun r => encode logTopic n r.1 r.2) = some cl ∧
      (mark ∈ cl.released →
        ∀ p : BitVec 32, commitRecordPartition n ⟨p, topic⟩ = q →
          ∃ more, more <+: after ∧
            cl.watermark ⟨p, topic⟩ = resumeAt ⟨p, topic⟩ (before ++ Entry.marker mark :: more)) := by
  refine ⟨_, consume_encode _ _ _ _, ?_⟩
  intro hrel p hp
  rw [foldl_map_snd] at hrel ⊢
  -- the marker has been read, and it was read from `q`
  have hmem := released_fold _ _ mark (by simp [CL.registerSync]) hrel
  rw [List.mem_map] at hmem
  obtain ⟨r, hr, hr2⟩ := hmem
  have hin : ∀ r ∈ reads, r.2 ∈ log r.1 := by
    intro r hr
    have := (ha r.1).subset
    apply this
    rw [List.mem_map]
    exact ⟨r, by simp [hr], rfl⟩
  have hrq : r.1 = q := huniq _ (by have := hin r hr; rwa [hr2] at this)
  -- what was read from `q` is a prefix that contains the marker
  obtain ⟨rest, hrest⟩ := ha q
  have hmq : Entry.marker mark ∈ (reads.filter (·.1 = q)).map (·.2) := by
    rw [List.mem_map]
    exact ⟨r, by simp [hr, hrq], hr2⟩
  generalize hX : (reads.filter (·.1 = q)).map (·.2) = X at hrest hmq
  rw [hlog] at hrest
  have hsplit : ∃ more, more <+: after ∧ X = before ++ Entry.marker mark :: more := by
    rcases List.append_eq_append_iff.mp hrest with ⟨a, h1, h2⟩ | ⟨a, h1, h2⟩
    · exact absurd (by rw [h1]; simp [hmq]) hb
    · cases a with
      | nil =>
        simp only [List.append_nil] at h1
        exact absurd (by rw [← h1]; exact hmq) hb
      | cons e a =>
        simp only [List.cons_append, List.cons.injEq] at h2
        obtain ⟨rfl, h2⟩ := h2
        exact ⟨a, ⟨rest, h2.symm⟩, h1⟩
  obtain ⟨more, hmore, hXeq⟩ := hsplit
  refine ⟨more, hmore, ?_⟩
  -- watermarks
  have hT : ∀ tp o, Entry.commit tp o ∈ reads.map (·.2) → tp.topic = topic := by
    intro tp o h
    rw [List.mem_map] at h
    obtain ⟨r, hr, hr2⟩ := h
    exact (hw r.1 tp o (by have := hin r hr; rwa [hr2] at this)).1
  have hproj := lastCommit_project ⟨p, topic⟩ q reads (by
    intro r hr o hc
    have := (hw r.1 ⟨p, topic⟩ o (by have := hin r hr; rwa [hc] at this)).2
    rw [this, hp])
  have hwm := watermarks_fold topic (reads.map (·.2)) hT p
  rw [hproj, hX, hXeq] at hwm
  have hsame : ∀ (es : List Entry) (c1 c2 : CL), c1.watermarks = c2.watermarks →
      (es.foldl step c1).watermarks = (es.foldl step c2).watermarks := by
    intro es
    induction es with
    | nil => intro _ _ h; exact h
    | cons e es ih =>
      intro c1 c2 h
      simp only [List.foldl_cons]
      apply ih
      cases e with
      | commit tp o => simp [step, h]
      | marker m => simp [step, closeSync_watermarks, h]
  unfold CL.watermark resumeAt
  rw [hsame _ (({} : CL).registerSync mark) {} rfl, hwm]
  cases lastCommit ⟨p, topic⟩ (before ++ Entry.marker mark :: more) <;> rfl

/-- C10. If nothing is committed for `tp` behind the marker (its previous owner is done), the
watermark is exactly the resume position of the log in front of the marker. -/
theorem C10_watermark_exact (topic logTopic : Bytes) (n : BitVec 32) (log : BitVec 32 → List Entry)
    (hw : WellRouted topic n log) (reads : List (BitVec 32 × Entry)) (ha : Arrives log reads)
    (mark : Bytes) (q : BitVec 32) (before after : List Entry)
    (hlog : log q = before ++ Entry.marker mark :: after)
    (huniq : ∀ q', Entry.marker mark ∈ log q' → q' = q) (hb : Entry.marker mark ∉ before)
    (p : BitVec 32) (hp : commitRecordPartition n ⟨p, topic⟩ = q)
    (hquiet : ∀ o, Entry.commit ⟨p, topic⟩ o ∉ after) :
    ∃ cl, (({} : CL).registerSync mark).consume (reads.map fun r => encode logTopic n r.1 r.2) = some cl ∧
      (mark ∈ cl.released → cl.watermark ⟨p, topic⟩ = resumeAt ⟨p, topic⟩ before) := by
  obtain ⟨cl, hcl, h⟩ := C10_watermark_after_sync topic logTopic n log hw reads ha mark q before after hlog huniq hb
  refine ⟨cl, hcl, fun hrel => ?_⟩
  obtain ⟨more, hmore, heq⟩ := h hrel p hp
  rw [heq]
  have hnone : ∀ es : List Entry, (∀ o, Entry.commit ⟨p, topic⟩ o ∉ es) → lastCommit ⟨p, topic⟩ es = none := by
    intro es
    induction es with
    | nil => intro _; rfl
    | cons e es ih =>
      intro h
      simp only [lastCommit, ih (fun o hm => h o (by simp [hm]))]
      cases e with
      | marker m => rfl
      | commit tp o =>
        have : tp ≠ ⟨p, topic⟩ := by
          intro ht; subst ht; exact h o (by simp)
        simp [this]
  unfold resumeAt
  rw [lastCommit_append, hnone (Entry.marker mark :: more) (by
    intro o hm
    simp only [List.mem_cons, reduceCtorEq, false_or] at hm
    exact hquiet o (hmore.subset hm))]
  simp

/-- What happens to the commit log: a synchronisation registers its mark, or a record arrives. -/
inductive Act where
  | reg (mark : Bytes)
  | recv (q : BitVec 32) (e : Entry)

/-- The code's reaction. -/
def act (logTopic : Bytes) (n : BitVec 32) (cl : CL) : Act → Option CL
  | .reg mark => some (cl.registerSync mark)
  | .recv q e => cl.receiveChange (encode logTopic n q e)

/-- C10. Whatever registrations and arrivals happen in which order, and however many synchronisations are under way:
nothing crashes; a synchronisation is released if and only if its own marker arrived after it had been registered; and the
watermarks are those of the arrivals alone. -/
theorem C10_released_iff (logTopic : Bytes) (n : BitVec 32) (acts : List Act) :
    ∃ cl, acts.foldlM (act logTopic n) ({} : CL) = some cl ∧
      (∀ mark, mark ∈ cl.released ↔
        ∃ a b c q, acts = a ++ Act.reg mark :: b ++ Act.recv q (.marker mark) :: c) ∧
      (∀ mark, mark ∈ cl.pending ↔
        ∃ a b, acts = a ++ Act.reg mark :: b ∧ ∀ q, Act.recv q (.marker mark) ∉ b) ∧
      cl.watermarks = ((acts.filterMap fun | .reg _ => none | .recv _ e => some e).foldl step {}).watermarks := by
  induction acts using List.reverseRecOn with
  | nil => exact ⟨{}, rfl, by simp, by simp, rfl⟩
  | append_singleton acts x ih =>
    obtain ⟨cl, h1, h2, h3, h4⟩ := ih
    -- the two shapes, one action later
    have shapeR : ∀ mark, (∃ a b c q, acts ++ [x] = a ++ Act.reg mark :: b ++ Act.recv q (.marker mark) :: c) ↔
        (∃ a b c q, acts = a ++ Act.reg mark :: b ++ Act.recv q (.marker mark) :: c) ∨
        ((∃ q, x = Act.recv q (.marker mark)) ∧ ∃ a b, acts = a ++ Act.reg mark :: b) := by
      intro mark
      constructor
      · rintro ⟨a, b, c, q, h⟩
        rcases List.eq_nil_or_concat c with rfl | ⟨c', y, rfl⟩
        · right
          have := List.append_inj' (t₁ := [x]) (t₂ := [Act.recv q (.marker mark)]) h rfl
          exact ⟨⟨q, by simpa using this.2⟩, a, b, this.1⟩
        · left
          have : acts ++ [x] = (a ++ Act.reg mark :: b ++ Act.recv q (.marker mark) :: c') ++ [y] := by
            rw [h]; simp
          exact ⟨a, b, c', q, (List.append_inj' this rfl).1⟩
      · rintro (⟨a, b, c, q, h⟩ | ⟨⟨q, rfl⟩, a, b, h⟩)
        · exact ⟨a, b, c ++ [x], q, by rw [h]; simp⟩
        · exact ⟨a, b, [], q, by rw [h]⟩
    have shapeP : ∀ mark, (∃ a b, acts ++ [x] = a ++ Act.reg mark :: b ∧ ∀ q, Act.recv q (.marker mark) ∉ b) ↔
        x = Act.reg mark ∨
        ((∀ q, x ≠ Act.recv q (.marker mark)) ∧
          ∃ a b, acts = a ++ Act.reg mark :: b ∧ ∀ q, Act.recv q (.marker mark) ∉ b) := by
      intro mark
      constructor
      · rintro ⟨a, b, h, hb⟩
        rcases List.eq_nil_or_concat b with rfl | ⟨b', y, rfl⟩
        · left
          have := (List.append_inj' (t₁ := [x]) (t₂ := [Act.reg mark]) h rfl).2
          simpa using this
        · right
          have h' : acts ++ [x] = (a ++ Act.reg mark :: b') ++ [y] := by rw [h]; simp
          have := List.append_inj' h' rfl
          have hx : x = y := by simpa using this.2
          refine ⟨?_, a, b', this.1, fun q hm => hb q (by simp [hm])⟩
          intro q hq
          exact hb q (by simp [← hx, hq])
      · rintro (rfl | ⟨hx, a, b, h, hb⟩)
        · exact ⟨acts, [], rfl, by simp⟩
        · refine ⟨a, b ++ [x], by rw [h]; simp, fun q hm => ?_⟩
          simp only [List.mem_append, List.mem_singleton] at hm
          rcases hm with hm | hm
          · exact hb q hm
          · exact hx q hm.symm
    have regs : ∀ mark, (∃ a b, acts = a ++ Act.reg mark :: b) → mark ∈ cl.pending ∨ mark ∈ cl.released := by
      intro mark ⟨a, b, h⟩
      by_cases hb : ∀ q, Act.recv q (.marker mark) ∉ b
      · exact .inl ((h3 mark).mpr ⟨a, b, h, hb⟩)
      · push Not at hb
        obtain ⟨q, hq⟩ := hb
        obtain ⟨u, v, rfl⟩ := List.append_of_mem hq
        exact .inr ((h2 mark).mpr ⟨a, u, v, q, by rw [h]; simp⟩)
    have pend : ∀ mark, mark ∈ cl.pending → ∃ a b, acts = a ++ Act.reg mark :: b := by
      intro mark h
      obtain ⟨a, b, h, _⟩ := (h3 mark).mp h
      exact ⟨a, b, h⟩
    rw [List.foldlM_append, h1]
    cases x with
    | reg m =>
      refine ⟨cl.registerSync m, rfl, ?_, ?_, ?_⟩
      · intro mark
        rw [shapeR, ← h2]
        simp [CL.registerSync]
      · intro mark
        rw [shapeP, ← h3]
        simp only [CL.registerSync, List.mem_cons, Act.reg.injEq]
        constructor
        · rintro (rfl | h)
          · exact .inl rfl
          · exact .inr ⟨by simp, h⟩
        · rintro (rfl | ⟨-, h⟩)
          · exact .inl rfl
          · exact .inr h
      · simp [CL.registerSync, h4]
    | recv q e =>
      refine ⟨step cl e, ?_, ?_, ?_, ?_⟩
      · simp [act, receive_encode]
      · intro mark
        rw [shapeR, ← h2]
        cases e with
        | commit tp o => simp [step]
        | marker m =>
          simp only [step, CL.closeSyncRequest, Act.recv.injEq, Entry.marker.injEq, exists_eq_left', exists_and_left]
          by_cases hm : m ∈ cl.pending
          · rw [if_pos hm]
            simp only [List.mem_cons]
            constructor
            · rintro (rfl | h)
              · exact .inr ⟨rfl, pend _ hm⟩
              · exact .inl h
            · rintro (h | ⟨rfl, -⟩)
              · exact .inr h
              · exact .inl rfl
          · rw [if_neg hm]
            constructor
            · exact .inl
            · rintro (h | ⟨rfl, h⟩)
              · exact h
              · exact (regs _ h).resolve_left hm
      · intro mark
        rw [shapeP, ← h3]
        cases e with
        | commit tp o => simp [step]
        | marker m =>
          simp only [step, CL.closeSyncRequest, ne_eq, Act.recv.injEq, Entry.marker.injEq, reduceCtorEq, false_or]
          by_cases hm : m ∈ cl.pending
          · rw [if_pos hm]
            simp only [List.mem_filter, decide_eq_true_eq]
            constructor
            · rintro ⟨h, hne⟩
              exact ⟨fun q' hq' => hne hq'.2.symm, h⟩
            · rintro ⟨hq, h⟩
              exact ⟨h, fun hne => hq q ⟨rfl, hne.symm⟩⟩
          · rw [if_neg hm]
            constructor
            · intro h
              exact ⟨fun q' hq' => hm (hq'.2 ▸ h), h⟩
            · exact fun h => h.2
      · rw [List.filterMap_append, List.foldl_append]
        simp only [List.filterMap_cons, List.filterMap_nil, List.foldl_cons, List.foldl_nil]
        cases e with
        | commit tp o => simp [step, h4]
        | marker m => simp [step, closeSync_watermarks, h4]

/-- Two synchronisations at once: only the one whose marker arrived is released. -/
example : (([.reg [8], .reg [9], .recv 0 (.marker [7]), .recv 0 (.commit ⟨1, [7]⟩ 4), .recv 1 (.marker [9])] : List Act).foldlM
    (act [5] 2) ({} : CL)).map (fun cl => (cl.released, cl.pending, cl.watermark ⟨1, [7]⟩)) =
      some ([[9]], [[8]], 5) := by decide

/-- A concrete log with two partitions, a foreign marker, two source partitions and an interleaving
that satisfies all hypotheses. -/
example : ∃ (log : BitVec 32 → List Entry) (reads : List (BitVec 32 × Entry)),
    WellRouted [7] 2 log ∧ Arrives log reads ∧
    log 1 = [.commit ⟨1, [7]⟩ 4, .marker [8], .commit ⟨3, [7]⟩ 9] ++ Entry.marker [9] :: [] ∧
    (∀ q', Entry.marker [9] ∈ log q' → q' = 1) ∧
    ((({} : CL).registerSync [9]).consume (reads.map fun r => encode [5] 2 r.1 r.2)).map
      (fun cl => (cl.released, cl.watermark ⟨1, [7]⟩, cl.watermark ⟨2, [7]⟩, cl.watermark ⟨5, [7]⟩))
      = some ([[9]], 5, 8, BitVec.ofInt 64 (-1)) := by
  let log : BitVec 32 → List Entry := fun q =>
    if q = 1 then [.commit ⟨1, [7]⟩ 4, .marker [8], .commit ⟨3, [7]⟩ 9, .marker [9]]
    else if q = 0 then [.commit ⟨2, [7]⟩ 7] else []
  refine ⟨log, [(1, .commit ⟨1, [7]⟩ 4), (1, .marker [8]), (0, .commit ⟨2, [7]⟩ 7),
    (1, .commit ⟨3, [7]⟩ 9), (1, .marker [9])], ?_, ?_, rfl, ?_, by decide⟩
  · intro q tp o h
    simp only [log] at h
    by_cases h1 : q = 1
    · simp [h1] at h
      rcases h with ⟨rfl, _⟩ | ⟨rfl, _⟩ <;> exact ⟨rfl, by rw [h1]; decide⟩
    · by_cases h0 : q = 0
      · simp [h0] at h
        rcases h with ⟨rfl, _⟩; exact ⟨rfl, by rw [h0]; decide⟩
      · rw [if_neg h1, if_neg h0] at h
        cases h
  · intro q
    by_cases h1 : q = 1
    · subst h1; decide
    · by_cases h0 : q = 0
      · subst h0; decide
      · have a1 : ¬ (1 : BitVec 32) = q := fun h => h1 h.symm
        have a0 : ¬ (0 : BitVec 32) = q := fun h => h0 h.symm
        simp [log, h1, h0]
        simp_all
  · intro q h
    by_cases h1 : q = 1
    · exact h1
    · by_cases h0 : q = 0
      · simp [log, h0] at h
      · simp only [log] at h
        rw [if_neg h1, if_neg h0] at h
        cases h

/-- The full claim of C10 for commit logs that serve several source topics (the commit-log topic is
named after the consumer group only, `streams/source.go:195-197`): the watermark of a topic partition
is its own resume position. -/
def WatermarkPerTopic : Prop :=
  ∀ (es : List Entry) (cl : CL), ({} : CL).consume (es.map (encode [5] 2 0)) = some cl →
    ∀ tp, cl.watermark tp = resumeAt tp es

/-- C10 is violated if one consumer group consumes two topics: watermarks are kept by partition number
only, so the position of one topic overwrites that of the other. -/
theorem C10_two_topics_violated : ¬ WatermarkPerTopic := by
  intro h
  have h1 := h [.commit ⟨0, [1]⟩ 100, .commit ⟨0, [2]⟩ 3]
    (step (step {} (.commit ⟨0, [1]⟩ 100)) (.commit ⟨0, [2]⟩ 3))
    (consume_encode {} [5] 2 [(0, .commit ⟨0, [1]⟩ 100), (0, .commit ⟨0, [2]⟩ 3)]) ⟨0, [1]⟩
  exact absurd h1 (by decide)

end Verif.CommitLog
