import Verif.Producer.Model
import Mathlib.Data.List.Nodup
/-
Invariant of one call of `BatchProducer.Produce`.
-/
namespace Verif.Producer

/-- Counting invariant. -/
structure Inv (n : Nat) (s : State) : Prop where
  len : s.recs.length = n
  nextLe : s.next ≤ n
  bound : ∀ i ∈ s.flight, i < s.next
  nodup : s.flight.Nodup
  count : s.pending = (n : Int) - s.next + s.flight.length
  post : s.posted = if s.hasCb = true ∧ 0 < n ∧ s.pending = 0 then 1 else 0
  ranLe : s.ran ≤ s.posted
  seenLen : s.seen.length = s.ran
  seenEq : ∀ l ∈ s.seen, l = s.recs
  rel : s.released = true ↔ 0 < s.ran

theorem inv_init (recs : List Rec) (hasCb : Bool) : Inv recs.length (init recs hasCb) := by
  constructor <;> simp [init]
  intro _ h hn; simp [hn] at h

theorem inv_step {d : Bytes} {n : Nat} {s s' : State} {l : Label} (I : Inv n s) (h : step d s l = some s') : Inv n s' := by
  cases l with
  | produce =>
    simp only [step] at h
    split at h
    · simp at h
    · rename_i r hr
      simp only [Option.some.injEq] at h
      subst h
      have hlt : s.next < n := by
        rw [← I.len]
        by_contra hc
        rw [List.getElem?_eq_none (by omega)] at hr; simp at hr
      have hc := I.count
      have hpos : s.pending ≠ 0 := by omega
      have hpost : s.posted = 0 := by rw [I.post, if_neg]; tauto
      have hran : s.ran = 0 := by have := I.ranLe; omega
      have hseen : s.seen = [] := List.eq_nil_of_length_eq_zero (by rw [I.seenLen, hran])
      constructor
      · simp [I.len]
      · exact hlt
      · intro i hi
        simp only [List.mem_append, List.mem_singleton] at hi
        rcases hi with hi | hi
        · have := I.bound i hi; simp only; omega
        · simp only; omega
      · simp only
        rw [List.nodup_append]
        refine ⟨I.nodup, by simp, ?_⟩
        intro a ha b hb hab
        rw [List.mem_singleton] at hb
        have := I.bound a ha
        omega
      · simp only [List.length_append, List.length_singleton]; omega
      · simp only; exact I.post
      · exact I.ranLe
      · exact I.seenLen
      · simp only [hseen]; simp
      · exact I.rel
  | ack i e =>
    simp only [step] at h
    split at h
    · rename_i hi
      simp only [Option.some.injEq] at h
      subst h
      have hl := List.length_erase_of_mem hi
      have hfl := List.length_pos_of_mem hi
      have hc := I.count
      have hpos : s.pending ≠ 0 := by have := I.nextLe; omega
      have hpost : s.posted = 0 := by rw [I.post, if_neg]; tauto
      have hran : s.ran = 0 := by have := I.ranLe; omega
      have hseen : s.seen = [] := List.eq_nil_of_length_eq_zero (by rw [I.seenLen, hran])
      have hb := I.bound i hi
      have hn := I.nextLe
      constructor
      · simp [promise, recordComplete, I.len]
      · exact I.nextLe
      · intro j hj; exact I.bound j (List.mem_of_mem_erase hj)
      · exact I.nodup.erase i
      · simp only [promise, recordComplete]; omega
      · simp only [promise, recordComplete, hpost]
        have : 0 < n := by omega
        simp only [this, true_and, and_comm (a := s.pending - 1 = 0), Nat.zero_add]
      · simp only [promise, recordComplete, hran]; omega
      · exact I.seenLen
      · simp [promise, recordComplete, hseen]
      · exact I.rel
    · simp at h
  | execute =>
    simp only [step] at h
    split at h
    · rename_i hlt
      simp only [Option.some.injEq] at h
      subst h
      constructor
      · exact I.len
      · exact I.nextLe
      · exact I.bound
      · exact I.nodup
      · exact I.count
      · exact I.post
      · exact hlt
      · simp [I.seenLen]
      · intro l hl
        rcases List.mem_append.1 hl with hl | hl
        · exact I.seenEq l hl
        · rw [List.mem_singleton] at hl; exact hl
      · simp
    · simp at h

theorem inv_run {d : Bytes} {n : Nat} {s s' : State} {ls : List Label} (I : Inv n s) (h : run d s ls = some s') : Inv n s' := by
  induction ls generalizing s with
  | nil => simp only [run, Option.some.injEq] at h; subst h; exact I
  | cons l ls ih =>
    simp only [run, Option.bind_eq_some_iff] at h
    obtain ⟨s1, e1, e2⟩ := h
    exact ih (inv_step I e1) e2

theorem inv_reach {d : Bytes} {recs : List Rec} {cb : Bool} {s : State} (h : Reach d recs cb s) : Inv recs.length s := by
  obtain ⟨ls, h⟩ := h
  exact inv_run (inv_init recs cb) h

theorem cb_step {d : Bytes} {s s' : State} {l : Label} (h : step d s l = some s') : s'.hasCb = s.hasCb := by
  cases l with
  | produce =>
    simp only [step] at h
    split at h
    · simp at h
    · simp only [Option.some.injEq] at h; subst h; rfl
  | ack i e =>
    simp only [step] at h
    split at h
    · simp only [Option.some.injEq] at h; subst h; rfl
    · simp at h
  | execute =>
    simp only [step] at h
    split at h
    · simp only [Option.some.injEq] at h; subst h; rfl
    · simp at h

theorem cb_run {d : Bytes} {s s' : State} {ls : List Label} (h : run d s ls = some s') : s'.hasCb = s.hasCb := by
  induction ls generalizing s with
  | nil => simp only [run, Option.some.injEq] at h; subst h; rfl
  | cons l ls ih =>
    simp only [run, Option.bind_eq_some_iff] at h
    obtain ⟨s1, e1, e2⟩ := h
    rw [ih e2, cb_step e1]

/-- The records carry the error of their acknowledgement, and the topics in the order of the produce calls are those of the records with the default filled in. -/
structure Data (d : Bytes) (recs : List Rec) (acks : List (Nat × Option Nat)) (s : State) : Prop where
  topic : ∀ i, i < s.next → (s.recs[i]?).map Rec.topic = (recs[i]?).map fun r => (withDefault d r).topic
  rest : ∀ i, s.next ≤ i → s.recs[i]? = recs[i]?
  sent : s.sent = (recs.take s.next).map fun r => (withDefault d r).topic
  err : ∀ i e, (i, e) ∈ acks → (s.recs[i]?).map Rec.err = some e
  done : ∀ i, i < s.next → i ∉ s.flight → ∃ e, (i, e) ∈ acks
  acked : ∀ i e, (i, e) ∈ acks → i < s.next ∧ i ∉ s.flight

/-- The acknowledgements in a sequence of steps. -/
def acksOf (ls : List Label) : List (Nat × Option Nat) :=
  ls.filterMap fun
    | .ack i e => some (i, e)
    | _ => none

theorem data_init (d : Bytes) (recs : List Rec) (cb : Bool) : Data d recs [] (init recs cb) := by
  constructor <;> simp [init]

theorem data_step {d : Bytes} {recs : List Rec} {acks : List (Nat × Option Nat)} {s s' : State} {l : Label} (I : Inv recs.length s)
    (D : Data d recs acks s) (h : step d s l = some s') : Data d recs (acks ++ acksOf [l]) s' := by
  cases l with
  | produce =>
    simp only [step] at h
    split at h
    · simp at h
    · rename_i r hr
      simp only [Option.some.injEq] at h
      subst h
      have hr' := D.rest s.next (Nat.le_refl _)
      rw [hr] at hr'
      have hlt : s.next < s.recs.length := by
        by_contra hc
        rw [List.getElem?_eq_none (by omega)] at hr; simp at hr
      simp only [acksOf, List.filterMap_cons, List.filterMap_nil, List.append_nil]
      constructor
      · intro i hi
        simp only at hi ⊢
        by_cases e : i = s.next
        · subst e
          rw [List.getElem?_set_self hlt, ← hr']; rfl
        · rw [List.getElem?_set_ne (by omega)]; exact D.topic i (by omega)
      · intro i hi
        simp only at hi ⊢
        rw [List.getElem?_set_ne (by omega)]; exact D.rest i (by omega)
      · simp only
        rw [List.take_add_one, List.map_append, ← D.sent, ← hr']; rfl
      · intro i e hie
        simp only
        have := D.acked i e hie
        rw [List.getElem?_set_ne (by omega)]; exact D.err i e hie
      · intro i hi hf
        simp only [List.mem_append, List.mem_singleton, not_or] at hi hf
        exact D.done i (by omega) hf.1
      · intro i e hie
        have := D.acked i e hie
        simp only [List.mem_append, List.mem_singleton, not_or]
        exact ⟨by omega, this.2, by omega⟩
  | ack i e =>
    simp only [step] at h
    split at h
    · rename_i hi
      simp only [Option.some.injEq] at h
      subst h
      have hb := I.bound i hi
      have hn := I.nextLe
      have hlt : i < s.recs.length := by rw [I.len]; omega
      simp only [acksOf, List.filterMap_cons, List.filterMap_nil, promise, recordComplete]
      have hmod : ∀ j, j ≠ i → (s.recs.modify i fun r => { r with err := e })[j]? = s.recs[j]? := by
        intro j hj; rw [List.getElem?_modify]; simp [Ne.symm hj]
      have hself : (s.recs.modify i fun r => { r with err := e })[i]? = (s.recs[i]?).map fun r => { r with err := e } := by
        rw [List.getElem?_modify]; simp
      constructor
      · intro j hj
        simp only at hj ⊢
        by_cases ej : j = i
        · subst ej
          rw [hself, Option.map_map]
          exact D.topic j hj
        · rw [hmod j ej]; exact D.topic j hj
      · intro j hj
        simp only at hj ⊢
        rw [hmod j (by omega)]; exact D.rest j hj
      · exact D.sent
      · intro j e' hj
        simp only
        rcases List.mem_append.1 hj with hj | hj
        · have := D.acked j e' hj
          rw [hmod j (by rintro rfl; exact this.2 hi)]; exact D.err j e' hj
        · simp only [List.mem_singleton, Prod.mk.injEq] at hj
          obtain ⟨rfl, rfl⟩ := hj
          rw [hself, List.getElem?_eq_getElem hlt]; rfl
      · intro j hj hf
        simp only at hj hf
        by_cases ej : j = i
        · subst ej; exact ⟨e, by simp⟩
        · obtain ⟨e', he'⟩ := D.done j hj (fun hm => hf ((List.mem_erase_of_ne ej).2 hm))
          exact ⟨e', List.mem_append_left _ he'⟩
      · intro j e' hj
        simp only
        rcases List.mem_append.1 hj with hj | hj
        · have := D.acked j e' hj
          exact ⟨this.1, fun hm => this.2 (List.mem_of_mem_erase hm)⟩
        · simp only [List.mem_singleton, Prod.mk.injEq] at hj
          obtain ⟨rfl, rfl⟩ := hj
          exact ⟨hb, I.nodup.not_mem_erase⟩
    · simp at h
  | execute =>
    simp only [step] at h
    split at h
    · simp only [Option.some.injEq] at h
      subst h
      simp only [acksOf, List.filterMap_cons, List.filterMap_nil, List.append_nil]
      exact ⟨D.topic, D.rest, D.sent, D.err, D.done, D.acked⟩
    · simp at h

theorem data_run {d : Bytes} {recs : List Rec} {acks : List (Nat × Option Nat)} {s s' : State} {ls : List Label} (I : Inv recs.length s)
    (D : Data d recs acks s) (h : run d s ls = some s') : Data d recs (acks ++ acksOf ls) s' := by
  induction ls generalizing s acks with
  | nil => simp only [run, Option.some.injEq] at h; subst h; simpa [acksOf] using D
  | cons l ls ih =>
    simp only [run, Option.bind_eq_some_iff] at h
    obtain ⟨s1, e1, e2⟩ := h
    have := ih (inv_step I e1) (data_step I D e1) e2
    rw [List.append_assoc] at this
    have hcons : acksOf [l] ++ acksOf ls = acksOf (l :: ls) := by
      unfold acksOf; rw [← List.filterMap_append]; rfl
    rwa [hcons] at this

end Verif.Producer
