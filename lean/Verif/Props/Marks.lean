import Verif.Marks.Proofs
import Verif.Props.Eos
/-
Property C73: the records marked for the consumer group (`streams/eos_producer.go:394-406`), for every pool size, every
configuration, every interleaving and every iteration order of the maps.
-/
namespace Verif.Marks
open Verif.Eos

/-- The run of `Verif.Eos.demo` with the iteration order `[5]` in line 397. -/
def demo : List (Label × List Nat) := Eos.demo.map fun l => (l, [5])

theorem run_reach {c : Cfg} {on : Bool} {ls : List (Label × List Nat)} {s s' : St} (h : Reach c on s) (hr : run c s ls = some s')
    (hl : ∀ x ∈ ls, x.1 ≠ .commitFail true) : Reach c on s' := by
  induction ls generalizing s with
  | nil => cases hr; exact h
  | cons l ls ih =>
    obtain ⟨l, o⟩ := l
    simp only [run, Option.bind_eq_some_iff] at hr
    obtain ⟨s1, h1, h2⟩ := hr
    exact ih (.step l o h (hl _ (List.mem_cons_self ..)) h1) h2 (fun x hx => hl x (List.mem_cons_of_mem _ hx))

/-- After the first three quarters of the run nothing is marked, at its end event 0 is (not the interjection, and not the event
of the transaction that is still open). -/
example : ∃ s, Reach demoCfg true s ∧ s.marks = [(5, 10)] ∧ groupOffset s.marks 5 = some 11 ∧ s.pool.ended = [(0, true)] := by
  have hd : ∃ s, run demoCfg (St.init demoCfg true) demo = some s ∧ s.marks = [(5, 10)] ∧ groupOffset s.marks 5 = some 11 ∧
      s.pool.ended = [(0, true)] := ⟨_, rfl, by decide +kernel, by decide +kernel, by decide +kernel⟩
  obtain ⟨s, h1, h2⟩ := hd
  exact ⟨s, run_reach .init h1 (by decide +kernel), h2⟩

example : ∃ s, Reach demoCfg true s ∧ s.marks = [] ∧ s.pool.done = [1, 0] := by
  have hd : ∃ s, run demoCfg (St.init demoCfg true) (demo.take 19) = some s ∧ s.marks = [] ∧ s.pool.done = [1, 0] :=
    ⟨_, rfl, by decide +kernel, by decide +kernel⟩
  obtain ⟨s, h1, h2⟩ := hd
  exact ⟨s, run_reach .init h1 (by decide +kernel), h2⟩

/-- An ended transaction with a real event was committed. -/
theorem committed_of_ended {c : Cfg} (hn : 0 < c.poolSize) {s : Pool} (h : Eos.Reach c s) {e : Ev} {g o : Nat}
    (he : (e, g) ∈ s.added) (hg : g ∈ s.ended.map Prod.fst) (ho : e.off = some o) : (g, true) ∈ s.ended := by
  obtain ⟨⟨g', b⟩, hb, rfl⟩ := List.mem_map.1 hg
  have hm : e ∈ evOf s.added g' := mem_evOf.2 he
  have hc := ended_commits hn h (List.mem_map.2 ⟨_, hb, rfl⟩) e.part
  obtain ⟨k, hk⟩ : ∃ k, newest (evOf s.added g') e.part = some k := by
    cases hx : newest (evOf s.added g') e.part with
    | some k => exact ⟨k, rfl⟩
    | none =>
      exfalso
      unfold newest at hx
      rw [List.head?_eq_none_iff, List.filterMap_eq_nil_iff] at hx
      have := hx e (by simp [hm])
      rw [ho] at this; simp at this
  unfold expect at hc
  rw [hk] at hc
  have hne : (e.part, k + 1) ∈ commits s.sent g' e.part := by rw [hc]; simp
  unfold commits at hne
  obtain ⟨x, hx, _⟩ := List.mem_filterMap.1 hne
  rw [ended_sent hn h (List.mem_map.2 ⟨_, hb, rfl⟩)] at hx
  obtain ⟨a, ha, r, B, O, F, H⟩ := ended_old hn h
  have hx' := mem_ofTp.1 hx
  rw [r.calls] at hx'
  have hb' := hb
  rw [r.ended] at hb'
  have := (F.flag g' b hb').2 ⟨x, hx'.1, hx'.2.1⟩
  subst this
  exact hb

/-- **C73** (exactly the committed ones). With `CommitOffsets` a record is marked exactly if it belongs to a transaction that was
committed; interjections have no offset and are never marked. -/
theorem C73_marked {c : Cfg} (hn : 0 < c.poolSize) {s : St} (h : Reach c true s) (tp o : Nat) :
    (tp, o) ∈ s.marks ↔ ∃ e, Committed s.pool e ∧ e.part = tp ∧ e.off = some o := by
  obtain ⟨hp, -⟩ := reach_pool h
  rw [mem_marks hn h]
  constructor
  · rintro ⟨-, e, g, h1, h2, h3, h4⟩
    exact ⟨e, ⟨g, h1, committed_of_ended hn hp h1 h2 h4⟩, h3, h4⟩
  · rintro ⟨e, ⟨g, h1, h2⟩, h3, h4⟩
    exact ⟨rfl, e, g, h1, List.mem_map.2 ⟨_, h2, rfl⟩, h3, h4⟩

/-- **C73** (off). Without `CommitOffsets` nothing is ever marked. -/
theorem C73_off {c : Cfg} (hn : 0 < c.poolSize) {s : St} (h : Reach c false s) : s.marks = [] := by
  rw [List.eq_nil_iff_forall_not_mem]
  rintro ⟨tp, o⟩ hm
  have := ((mem_marks hn h).1 hm).1
  simp at this

example : ∃ s, Reach demoCfg false s ∧ s.pool.ended = [(0, true)] ∧ s.marks = [] := by
  have hd : ∃ s, run demoCfg (St.init demoCfg false) demo = some s ∧ s.pool.ended = [(0, true)] ∧ s.marks = [] :=
    ⟨_, rfl, by decide +kernel, by decide +kernel⟩
  obtain ⟨s, h1, h2⟩ := hd
  exact ⟨s, run_reach .init h1 (by decide +kernel), h2⟩

/-- **C73** (sequence). The marks of a partition are made transaction by transaction in the order of the commits, within a
transaction from the newest record to the oldest; in particular each record once. -/
theorem C73_sequence {c : Cfg} (hn : 0 < c.poolSize) {s : St} (h : Reach c true s) (tp : Nat) :
    (s.marks.filter fun m => m.1 = tp).map Prod.snd =
      (s.pool.ended.map Prod.fst).flatMap fun g => (offsetsOf s.pool g tp).reverse := by
  rw [marks_eq hn h tp]
  simp only [if_true]
  generalize s.pool.ended.map Prod.fst = gs
  induction gs with
  | nil => rfl
  | cons g gs ih =>
    rw [List.flatMap_cons, List.flatMap_cons, List.map_append, ih]
    congr 1
    unfold genMarks offsetsOf evOf
    generalize s.pool.added = l
    rw [← List.filterMap_reverse, ← List.filter_reverse, ← List.filter_reverse, ← List.map_reverse, ← List.filter_reverse]
    generalize l.reverse = l
    induction l with
    | nil => rfl
    | cons x l ih =>
      by_cases h1 : x.2 = g
      · by_cases h2 : x.1.part = tp
        · cases ho : x.1.off <;> simp [h1, h2, ho] <;> simpa using ih
        · simp [h1, h2]; simpa using ih
      · simp [h1]; simpa using ih

/-- The offset records of a transaction for a partition, without the partition. -/
def recordsIn (s : Pool) (tp g : Nat) : List Nat :=
  (s.sent.filter fun x => x.gen = g ∧ x.part = tp).filterMap fun x => match x.r with
    | .commit _ off => some off
    | .user _ => none

theorem recordsIn_eq {c : Cfg} (hn : 0 < c.poolSize) {s : Pool} (h : Eos.Reach c s) {g : Nat} (hg : g ∈ s.ended.map Prod.fst)
    (tp : Nat) : recordsIn s tp g = ((newest (evOf s.added g) tp).map (· + 1)).toList := by
  have h1 := ended_commits hn h hg tp
  have h2 : recordsIn s tp g = (commits s.sent g tp).map Prod.snd := by
    unfold recordsIn commits ofTp
    rw [List.map_filterMap]
    apply List.filterMap_congr
    intro x _
    cases x.r <;> rfl
  rw [h2, h1]
  unfold expect
  cases newest (evOf s.added g) tp <;> rfl

theorem newest_mem {evs : List Ev} {tp k : Nat} (h : newest evs tp = some k) : ∃ e ∈ evs, e.part = tp ∧ e.off = some k := by
  unfold newest at h
  have := List.mem_of_mem_head? h
  obtain ⟨e, he, ho⟩ := List.mem_filterMap.1 this
  simp only [List.mem_reverse, List.mem_filter, decide_eq_true_eq] at he
  exact ⟨e, he.1, he.2, ho⟩

/-- **C73** (agreement). If the records of a partition arrive with increasing offsets, the offset the client commits to the
consumer group is the one in the last offset record that the committed transactions wrote to the commit log. -/
theorem C73_agrees {c : Cfg} (hn : 0 < c.poolSize) {s : St} (h : Reach c true s) (tp : Nat) (hinc : InOrder s.pool tp) :
    groupOffset s.marks tp = (committedRecords s.pool tp).getLast? := by
  obtain ⟨hp, -⟩ := reach_pool h
  obtain ⟨a, ha, r, B, O, F, H⟩ := ended_old hn hp
  have hK : ∃ K, s.pool.ended.map Prod.fst = List.range K := ⟨_, by rw [r.ended]; exact F.ended⟩
  obtain ⟨K, hK⟩ := hK
  have hcr : committedRecords s.pool tp = (List.range K).flatMap (recordsIn s.pool tp) := by
    unfold committedRecords; rw [hK]; rfl
  have hin : ∀ g, g < K → g ∈ s.pool.ended.map Prod.fst := by intro g hg; rw [hK]; simpa using hg
  have hev : ∀ g, g < K → recordsIn s.pool tp g = [] → ∀ e, (e, g) ∈ s.pool.added → e.part = tp → e.off = none := by
    intro g hg h0 e he hpt
    rw [recordsIn_eq hn hp (hin g hg)] at h0
    cases ho : e.off with
    | none => rfl
    | some o =>
      exfalso
      cases hx : newest (evOf s.pool.added g) tp with
      | some k => rw [hx] at h0; simp at h0
      | none =>
        unfold newest at hx
        rw [List.head?_eq_none_iff, List.filterMap_eq_nil_iff] at hx
        have := hx e (by simp [mem_evOf.2 he, hpt])
        rw [ho] at this; simp at this
  rw [hcr]
  cases hl : ((List.range K).flatMap (recordsIn s.pool tp)).getLast? with
  | none =>
    rw [List.getLast?_eq_none_iff] at hl
    cases hg : groupOffset s.marks tp with
    | none => rfl
    | some k =>
      obtain ⟨⟨o, ho, rfl⟩, -⟩ := groupOffset_some hg
      obtain ⟨-, e, g, q1, q2, q3, q4⟩ := (mem_marks hn h).1 ho
      rw [hK, List.mem_range] at q2
      rw [List.flatMap_eq_nil_iff] at hl
      have := hev g q2 (hl g (by simpa using q2)) e q1 q3
      rw [q4] at this; simp at this
  | some k =>
    obtain ⟨g, hg, hk, hlast⟩ := range_last _ K k hl
    rw [recordsIn_eq hn hp (hin g hg)] at hk
    cases hx : newest (evOf s.pool.added g) tp with
    | none => rw [hx] at hk; simp at hk
    | some j =>
      rw [hx] at hk
      simp only [Option.map_some, Option.toList_some, List.mem_singleton] at hk
      subst hk
      obtain ⟨e, he, hpt, ho⟩ := newest_mem hx
      have hmark : (tp, j) ∈ s.marks := (mem_marks hn h).2 ⟨rfl, e, g, mem_evOf.1 he, hin g hg, hpt, ho⟩
      obtain ⟨⟨g', b⟩, hb, hgb⟩ := List.mem_map.1 (hin g hg)
      simp only at hgb; subst hgb
      have hoff : (tp, j + 1) ∈ offsetRecords (s.pool.sent.filter fun x => x.gen = g' ∧ x.part = tp) := by
        have h1 := ended_commits hn hp (hin g' hg) tp
        have h2 : offsetRecords (s.pool.sent.filter fun x => x.gen = g' ∧ x.part = tp) = commits s.pool.sent g' tp := by
          unfold offsetRecords commits ofTp
          apply List.filterMap_congr
          intro x _
          cases x.r <;> rfl
        rw [h2, h1]
        unfold expect
        rw [hx]; simp
      have hhigh := C03_highest hn hp hb hinc hoff
      cases hgo : groupOffset s.marks tp with
      | none => exact absurd hmark (groupOffset_none hgo j)
      | some k =>
        obtain ⟨⟨o, ho', rfl⟩, hmax⟩ := groupOffset_some hgo
        have h1 := hmax j hmark
        obtain ⟨-, e', g2, q1, q2, q3, q4⟩ := (mem_marks hn h).1 ho'
        have h2 : o < j + 1 := by
          by_cases hle : g2 ≤ g'
          · exact hhigh e' g2 o q1 hle q3 q4
          · rw [hK, List.mem_range] at q2
            have := hev g2 q2 (hlast g2 (by omega) q2) e' q1 q3
            rw [q4] at this; simp at this
        congr 1; omega

theorem added_before {l : List (Ev × Nat)} {tp : Nat} (hm : (l.map Prod.snd).Pairwise (· ≤ ·))
    (hi : ((l.filter fun x => x.1.part = tp).filterMap fun x => x.1.off).Pairwise (· < ·))
    {e e' : Ev} {g g' o o' : Nat} (h1 : (e, g) ∈ l) (h2 : (e', g') ∈ l) (hlt : g < g') (p1 : e.part = tp) (p2 : e'.part = tp)
    (o1 : e.off = some o) (o2 : e'.off = some o') : o < o' := by
  induction l with
  | nil => simp at h1
  | cons x l ih =>
    simp only [List.map_cons, List.pairwise_cons] at hm
    rcases List.mem_cons.1 h1 with rfl | h3
    · rcases List.mem_cons.1 h2 with h2 | h2
      · cases h2; omega
      · rw [List.filter_cons, if_pos (by simpa using p1)] at hi
        simp only [List.filterMap_cons, o1, List.pairwise_cons] at hi
        apply hi.1
        rw [List.mem_filterMap]
        exact ⟨(e', g'), by simp [h2, p2], o2⟩
    · rcases List.mem_cons.1 h2 with rfl | h2
      · have := hm.1 g (List.mem_map.2 ⟨(e, g), h3, rfl⟩)
        simp only at this; omega
      · refine ih hm.2 ?_ h3 h2
        rw [List.filter_cons] at hi
        split at hi
        · rw [List.filterMap_cons] at hi
          split at hi
          · exact hi
          · exact (List.pairwise_cons.1 hi).2
        · exact hi

/-- **C73** (resume point). If the records of a partition arrive with increasing offsets, then the group's offset separates the
records whose transaction was committed from the others: a consumer that starts there reads exactly those that were not. -/
theorem C73_resume {c : Cfg} (hn : 0 < c.poolSize) {s : St} (h : Reach c true s) (tp : Nat) (hinc : InOrder s.pool tp)
    {e : Ev} {g o : Nat} (he : (e, g) ∈ s.pool.added) (hpt : e.part = tp) (ho : e.off = some o) :
    Committed s.pool e ↔ ∃ k, groupOffset s.marks tp = some k ∧ o < k := by
  obtain ⟨hp, -⟩ := reach_pool h
  obtain ⟨a, ha, r, B, O, F, H⟩ := ended_old hn hp
  constructor
  · rintro ⟨g', h1, h2⟩
    have hm : (tp, o) ∈ s.marks := (C73_marked hn h tp o).2 ⟨e, ⟨g', h1, h2⟩, hpt, ho⟩
    cases hgo : groupOffset s.marks tp with
    | none => exact absurd hm (groupOffset_none hgo o)
    | some k => exact ⟨k, rfl, (groupOffset_some hgo).2 o hm⟩
  · rintro ⟨k, hk, hlt⟩
    obtain ⟨⟨j, hj, rfl⟩, -⟩ := groupOffset_some hk
    obtain ⟨-, e', g', q1, q2, q3, q4⟩ := (mem_marks hn h).1 hj
    have hmono : (s.pool.added.map Prod.snd).Pairwise (· ≤ ·) := by rw [r.added]; exact B.mono
    have hle : g ≤ g' := by
      by_contra hc
      have := added_before hmono hinc q1 he (by omega) q3 hpt q4 ho
      omega
    refine ⟨g, he, committed_of_ended hn hp he ?_ ho⟩
    rw [r.ended, F.ended, List.mem_range] at q2 ⊢
    omega

/-- The hypotheses of `C73_agrees` and `C73_resume` in the run of above, at the end of which event 0 is committed and event 2, of
the open transaction, is not. -/
example : ∃ s, Reach demoCfg true s ∧ InOrder s.pool 5 ∧ (e0, 0) ∈ s.pool.added ∧ (e2, 1) ∈ s.pool.added ∧
    groupOffset s.marks 5 = some 11 ∧ committedRecords s.pool 5 = [11] := by
  have hd : ∃ s, run demoCfg (St.init demoCfg true) demo = some s ∧
      ((s.pool.added.filter fun x => x.1.part = 5).filterMap fun x => x.1.off) = [10, 11] ∧ (e0, 0) ∈ s.pool.added ∧
      (e2, 1) ∈ s.pool.added ∧ groupOffset s.marks 5 = some 11 ∧ committedRecords s.pool 5 = [11] :=
    ⟨_, rfl, by decide +kernel, by decide +kernel, by decide +kernel, by decide +kernel, by decide +kernel⟩
  obtain ⟨s, h1, h2, h3⟩ := hd
  refine ⟨s, run_reach .init h1 (by decide +kernel), ?_, h3⟩
  unfold InOrder
  rw [h2]
  simp

end Verif.Marks
