import Verif.Producer.Proofs
/-
Property C27: `BatchProducer` (`streams/producer.go:89-178`).
-/
namespace Verif.Producer

/-- **C27** (safety). For a non-empty list of records and a callback: it runs at most once, only after every record has been acknowledged, and it sees
every record with the error of its own acknowledgement. -/
theorem C27_once_after_all_partial {d : Bytes} {recs : List Rec} {ls : List Label} {s : State} (h : run d (init recs true) ls = some s) :
    s.ran ≤ 1 ∧
    (1 ≤ s.ran → (∀ i, i < recs.length → ∃ e, (i, e) ∈ acksOf ls) ∧
      ∃ l, s.seen = [l] ∧ l.length = recs.length ∧ ∀ i e, (i, e) ∈ acksOf ls → (l[i]?).map Rec.err = some e) := by
  have I := inv_run (inv_init recs true) h
  have D := data_run (inv_init recs true) (data_init d recs true) h
  rw [List.nil_append] at D
  have hle := I.ranLe
  have hp := I.post
  refine ⟨by split at hp <;> omega, fun hr => ?_⟩
  have hcond : s.hasCb = true ∧ 0 < recs.length ∧ s.pending = 0 := by
    by_contra hc
    rw [if_neg hc] at hp; omega
  have hc := I.count
  have hn := I.nextLe
  have hflight : s.flight = [] := List.eq_nil_of_length_eq_zero (by omega)
  refine ⟨fun i hi => D.done i (by omega) (by simp [hflight]), ?_⟩
  have hran : s.ran = 1 := by split at hp <;> omega
  have hlen := I.seenLen
  rw [hran] at hlen
  obtain ⟨l, hl⟩ := List.length_eq_one_iff.1 hlen
  refine ⟨l, hl, ?_, ?_⟩
  · rw [I.seenEq l (by simp [hl]), I.len]
  · intro i e hie
    rw [I.seenEq l (by simp [hl])]; exact D.err i e hie

/-- **C27** (completion). Once the loop has handed over all records and all are acknowledged, the completion has been posted exactly once, and the event loop
can run it until it has run. -/
theorem C27_completes_partial {d : Bytes} {recs : List Rec} (hne : recs ≠ []) {s : State} (h : Reach d recs true s)
    (hall : s.next = recs.length) (hack : s.flight = []) : s.posted = 1 ∧ (s.ran = 1 ∨ step d s .execute ≠ none) := by
  have I := inv_reach h
  have hcb : s.hasCb = true := by obtain ⟨ls, h⟩ := h; rw [cb_run h]; rfl
  have hc := I.count
  rw [hack, hall] at hc
  have hp := I.post
  have hpos : 0 < recs.length := List.length_pos_iff.2 hne
  rw [if_pos ⟨hcb, hpos, by simpa using hc⟩] at hp
  refine ⟨hp, ?_⟩
  have := I.ranLe
  by_cases hr : s.ran = 1
  · exact .inl hr
  · right
    simp only [step]
    rw [if_pos (by omega)]; simp

/-- Records are handed to the client in order and with the default topic in place of an empty one. -/
theorem C27_topics {d : Bytes} {recs : List Rec} {cb : Bool} {s : State} (h : Reach d recs cb s) :
    s.sent = (recs.take s.next).map fun r => if r.topic = [] then d else r.topic := by
  obtain ⟨ls, h⟩ := h
  have D := data_run (inv_init recs cb) (data_init d recs cb) h
  rw [D.sent]
  apply List.map_congr_left
  intro r _
  unfold withDefault
  by_cases hr : r.topic = []
  · simp [hr]
  · have : r.topic.length ≠ 0 := by simpa using hr
    simp [hr]

/-- Non-vacuity: three records, acknowledged out of order, one with an error; the callback runs once and sees the error. -/
example : (run (ascii "t") (init [⟨[], none⟩, ⟨ascii "u", none⟩, ⟨[], none⟩] true)
    [.produce, .produce, .ack 1 (some 9), .produce, .ack 2 none, .ack 0 none, .execute]).map (fun s => (s.ran, s.seen.map (·.map Rec.err), s.sent)) =
    some (1, [[none, some 9, none]], [ascii "t", ascii "u", ascii "t"]) := by decide

/-- **C27 is violated** for the empty list: `Produce` returns `Incomplete` and no step can ever complete the event. -/
theorem C27_empty_violated (d : Bytes) : ∀ cb s, Reach d [] cb s → s.posted = 0 ∧ s.ran = 0 ∧ ∀ l, step d s l = none := by
  intro cb s h
  have I := inv_reach h
  have hp := I.post
  have hr := I.ranLe
  simp only [List.length_nil] at hp
  have hp0 : s.posted = 0 := by simpa using hp
  have hrecs : s.recs = [] := List.eq_nil_of_length_eq_zero I.len
  have hn := I.nextLe
  have hflight : s.flight = [] := by
    cases hf : s.flight with
    | nil => rfl
    | cons i r =>
      have := I.bound i (by simp [hf])
      simp only [List.length_nil] at hn
      omega
  refine ⟨hp0, by omega, fun l => ?_⟩
  cases l with
  | produce => simp [step, hrecs]
  | ack i e => simp [step, hflight]
  | execute => simp [step]; omega

/-- **C27 is violated** without a callback: whatever happens, the event is never completed, although `Produce` returned `Incomplete`. -/
theorem C27_nil_callback_violated {d : Bytes} {recs : List Rec} {s : State} (h : Reach d recs false s) : s.posted = 0 ∧ s.ran = 0 := by
  have I := inv_reach h
  have hcb : s.hasCb = false := by obtain ⟨ls, h⟩ := h; rw [cb_run h]; rfl
  have hp := I.post
  have hr := I.ranLe
  rw [hcb] at hp
  simp only [Bool.false_eq_true, false_and, if_false] at hp
  omega

/-- Non-vacuity: with a record acknowledged and no callback nothing is posted. -/
example : (run [] (init [⟨[], none⟩] false) [.produce, .ack 0 none]).map (fun s => (s.pending, s.posted)) = some (0, 0) := by decide

end Verif.Producer
