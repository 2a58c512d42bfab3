import Verif.Eos.Proofs
/-
Properties C02–C06 of the pool of transactional producers (`streams/eos_producer.go`), for every pool size, every configuration
and every interleaving of the forwarding loop, the commit loop and the goroutines that produce records and complete events.
-/
namespace Verif.Eos

/-- Events used in the examples: two real ones of partition 5 and an interjection between them. -/
def e0 : Ev := ⟨0, 5, some 10⟩
def e1 : Ev := ⟨1, 5, none⟩
def e2 : Ev := ⟨2, 5, some 11⟩

/-- A run in which transaction 0 (events 0 and 1) is committed while transaction 1 (event 2) already produces. -/
def demo : List Label :=
  [.add e0, .give, .produce e0 100, .check, .add e1, .give, .check, .tryFlush, .swapIn, .add e2, .give, .produce e2 200,
   .take, .beginCommit [5], .wait, .complete e1, .wait, .complete e0, .wait, .endTxn [5], .release, .release, .giveBack]

def demoCfg : Cfg := ⟨2, 1, 2, 4⟩

theorem run_reach {c : Cfg} {ls : List Label} {s s' : Pool} (h : Reach c s) (hr : run c s ls = some s')
    (hl : Label.commitFail true ∉ ls) : Reach c s' := by
  induction ls generalizing s with
  | nil => cases hr; exact h
  | cons l ls ih =>
    simp only [run, Option.bind_eq_some_iff] at hr
    obtain ⟨s1, h1, h2⟩ := hr
    simp only [List.mem_cons, not_or] at hl
    exact ih (.step l h (fun e => hl.1 e.symm) h1) h2 hl.2

/-! ### C02 -/

/-- **C02** (finished). When a transaction has ended, every event that was added to it is complete, and every record that was
produced for it has been handed to the client, per partition in the order of production. -/
theorem C02_commit_only_finished {c : Cfg} (hn : 0 < c.poolSize) {s : Pool} (h : Reach c s) {g : Nat} {b : Bool}
    (hg : (g, b) ∈ s.ended) :
    (∀ e, (e, g) ∈ s.added → e.id ∈ s.done) ∧
    (∀ tp, (s.sent.filter fun o => o.gen = g ∧ o.part = tp) = s.calls.filter fun o => o.gen = g ∧ o.part = tp) ∧
    (∀ o ∈ s.calls, o.gen = g → o ∈ s.sent) := by
  have hm : g ∈ s.ended.map Prod.fst := List.mem_map.2 ⟨_, hg, rfl⟩
  refine ⟨ended_done hn h hm, ended_sent hn h hm, ?_⟩
  intro o ho hog
  have h1 : o ∈ ofTp s.calls g o.part := mem_ofTp.2 ⟨ho, hog, rfl⟩
  rw [← ended_sent hn h hm] at h1
  exact (mem_ofTp.1 h1).1

/-- **C02** (membership). A record that the handler of an event produces is counted for the transaction the event was added to,
and the offset records of a commit for the transaction being committed. -/
theorem C02_records_in_their_transaction {c : Cfg} (hn : 0 < c.poolSize) {s s' : Pool} (h : Reach c s) {e : Ev} {x : Nat}
    (hs : step c s (.produce e x) = some s') :
    ∃ g, (e, g) ∈ s.added ∧ g ∉ s.ended.map Prod.fst ∧ s'.calls = s.calls ++ [⟨g, e.part, .user x⟩] := by
  obtain ⟨a, ha, r, B, O, F, H⟩ := ended_old hn h
  obtain ⟨a', h2, r'⟩ := sim_step hn _ (by simp) B O r hs
  unfold astep at h2
  simp only at h2
  split at h2
  · rename_i g hg
    split at h2
    · rename_i hh
      cases h2
      obtain ⟨⟨e', g2⟩, he', rfl⟩ := List.mem_map.1 hh.1
      obtain ⟨e2, k1, k2⟩ := B.asg1 _ _ hg
      obtain ⟨rfl, rfl⟩ := added_unique B k1 he' k2
      refine ⟨g, by rw [r.added]; exact he', ?_, ?_⟩
      · intro hm
        have := ended_done hn h hm _ (by rw [r.added]; exact he')
        rw [r.done] at this
        exact hh.2 this
      · rw [r'.calls, (aproduce_frame a g _ _).2.2.2.2.2.2.2.2.2.2, r.calls]
    · simp at h2
  · simp at h2

/-- **C02** (final). Nothing is added to a transaction after it has ended: neither events nor records. -/
theorem C02_nothing_after_the_end {c : Cfg} (hn : 0 < c.poolSize) {s s' : Pool} (h : Reach c s) {l : Label}
    (hl : l ≠ .commitFail true) (hs : step c s l = some s') {g : Nat} {b : Bool} (hg : (g, b) ∈ s.ended) :
    (g, b) ∈ s'.ended ∧ (∀ e, (e, g) ∈ s'.added ↔ (e, g) ∈ s.added) ∧
    (s'.calls.filter fun o => o.gen = g) = (s.calls.filter fun o => o.gen = g) ∧
    ∀ tp, (s'.sent.filter fun o => o.gen = g ∧ o.part = tp) = (s.sent.filter fun o => o.gen = g ∧ o.part = tp) := by
  have hm : g ∈ s.ended.map Prod.fst := List.mem_map.2 ⟨_, hg, rfl⟩
  obtain ⟨a, ha, r, B, O, F, H⟩ := ended_old hn h
  obtain ⟨a', h2, r'⟩ := sim_step hn _ hl B O r hs
  obtain ⟨h3, h4, m, h5⟩ := frozen l B F h2 (g := g) (by rw [← r.ended]; exact hm)
  have hin : (g, b) ∈ s'.ended := by rw [r'.ended, h5, ← r.ended]; exact List.mem_append.2 (.inl hg)
  refine ⟨hin, ?_, ?_, ?_⟩
  · intro e
    have h6 : (e, g) ∈ s'.added ↔ (e, g) ∈ (s'.added.filter fun x => x.2 = g) := by simp
    have h7 : (e, g) ∈ s.added ↔ (e, g) ∈ (s.added.filter fun x => x.2 = g) := by simp
    rw [h6, h7, r'.added, r.added, h4]
  · rw [r'.calls, r.calls, h3]
  · intro tp
    have h6 := ended_sent hn h hm tp
    have h7 := ended_sent hn (.step l h hl hs) (List.mem_map.2 ⟨_, hin, rfl⟩) tp
    unfold ofTp at h6 h7
    rw [h6, h7]
    have h8 : ∀ l : List Out, (l.filter fun o => o.gen = g ∧ o.part = tp) =
        (l.filter fun o => o.gen = g).filter fun o => o.part = tp := by
      intro l
      rw [List.filter_filter]
      apply List.filter_congr
      intro o _
      by_cases e1 : o.gen = g <;> by_cases e2 : o.part = tp <;> simp [e1, e2]
    rw [h8, h8, r'.calls, r.calls, h3]

/-- The demonstration: transaction 0 ended with both events complete; event 2 of transaction 1 is still open. -/
example : ((run demoCfg (Pool.init demoCfg) demo).map fun s => (s.ended, s.done, s.added.map fun x => (x.1.id, x.2))) =
    some ([(0, true)], [1, 0], [(0, 0), (1, 0), (2, 1)]) := by decide

/-! ### C03 -/

/-- The offset records among records. -/
def offsetRecords (l : List Out) : List (Nat × Nat) :=
  l.filterMap fun o => match o.r with
    | .commit p off => some (p, off)
    | .user _ => none

/-- The events of transaction `g`. -/
def eventsOf (s : Pool) (g : Nat) : List Ev := (s.added.filter fun x => x.2 = g).map Prod.fst

/-- **C03** (real events). If the newest real event of a partition in an ended transaction has offset `o`, the transaction was
committed and got exactly one offset record for the partition, with offset `o + 1`. -/
theorem C03_one_offset_record {c : Cfg} (hn : 0 < c.poolSize) {s : Pool} (h : Reach c s) {g : Nat} {b : Bool}
    (hg : (g, b) ∈ s.ended) {tp o : Nat} {pre post : List Ev} {e : Ev} (hev : eventsOf s g = pre ++ e :: post)
    (hp : e.part = tp) (ho : e.off = some o) (hnew : ∀ x ∈ post, x.part = tp → x.off = none) :
    b = true ∧ offsetRecords (s.sent.filter fun x => x.gen = g ∧ x.part = tp) = [(tp, o + 1)] := by
  have hm : g ∈ s.ended.map Prod.fst := List.mem_map.2 ⟨_, hg, rfl⟩
  have h1 := ended_commits hn h hm tp
  have h2 : evOf s.added g = pre ++ e :: post := hev
  rw [h2] at h1
  unfold expect at h1
  rw [newest_some hp ho hnew] at h1
  have h3 : offsetRecords (s.sent.filter fun x => x.gen = g ∧ x.part = tp) = [(tp, o + 1)] := by
    rw [show [(tp, o + 1)] = commits s.sent g tp from h1.symm]
    unfold offsetRecords commits ofTp
    apply List.filterMap_congr
    intro x _
    cases x.r <;> rfl
  refine ⟨?_, h3⟩
  obtain ⟨a, ha, r, B, O, F, H⟩ := ended_old hn h
  rw [r.ended] at hg
  rw [F.flag g b hg]
  have hne : (s.sent.filter fun x => x.gen = g ∧ x.part = tp) ≠ [] := by
    intro hc; rw [hc] at h3; simp [offsetRecords] at h3
  obtain ⟨x, hx⟩ := List.exists_mem_of_ne_nil _ hne
  simp only [List.mem_filter, decide_eq_true_eq] at hx
  rw [r.sent] at hx
  exact ⟨x, O.sub x hx.1, hx.2.1⟩

/-- **C03** (interjections). A partition of which an ended transaction has only interjections, or nothing, gets no offset
record. -/
theorem C03_no_offset_record {c : Cfg} (hn : 0 < c.poolSize) {s : Pool} (h : Reach c s) {g : Nat} {b : Bool}
    (hg : (g, b) ∈ s.ended) {tp : Nat} (hev : ∀ e ∈ eventsOf s g, e.part = tp → e.off = none) :
    offsetRecords (s.sent.filter fun x => x.gen = g ∧ x.part = tp) = [] := by
  have hm : g ∈ s.ended.map Prod.fst := List.mem_map.2 ⟨_, hg, rfl⟩
  have h1 := ended_commits hn h hm tp
  unfold expect at h1
  rw [newest_none (evs := evOf s.added g) hev] at h1
  rw [show ([] : List (Nat × Nat)) = commits s.sent g tp from h1.symm]
  unfold offsetRecords commits ofTp
  apply List.filterMap_congr
  intro x _
  cases x.r <;> rfl

/-- **C03** (highest). If the events of the partition arrive with increasing offsets, the offset committed by a transaction is
larger than the offset of every event of the partition in this transaction and all earlier ones. -/
theorem C03_highest {c : Cfg} (hn : 0 < c.poolSize) {s : Pool} (h : Reach c s) {g : Nat} {b : Bool}
    (hg : (g, b) ∈ s.ended) {tp off : Nat}
    (hinc : ((s.added.filter fun x => x.1.part = tp).filterMap fun x => x.1.off).Pairwise (· < ·))
    (hoff : (tp, off) ∈ offsetRecords (s.sent.filter fun x => x.gen = g ∧ x.part = tp)) :
    ∀ e g' o, (e, g') ∈ s.added → g' ≤ g → e.part = tp → e.off = some o → o < off := by
  intro e g' o he hgg hp ho
  -- the newest real event of the partition in the transaction
  have hreal : ∃ e' ∈ eventsOf s g, e'.part = tp ∧ e'.off ≠ none := by
    by_contra hc
    push Not at hc
    rw [C03_no_offset_record hn h hg hc] at hoff
    simp at hoff
  have hsplit : ∀ l : List Ev, (∃ e' ∈ l, e'.part = tp ∧ e'.off ≠ none) →
      ∃ pre e' post o', l = pre ++ e' :: post ∧ e'.part = tp ∧ e'.off = some o' ∧ ∀ x ∈ post, x.part = tp → x.off = none := by
    intro l
    induction l with
    | nil => simp
    | cons x l ih =>
      intro hex
      by_cases hl : ∃ e' ∈ l, e'.part = tp ∧ e'.off ≠ none
      · obtain ⟨pre, e', post, o', h1, h2⟩ := ih hl
        exact ⟨x :: pre, e', post, o', by rw [h1]; rfl, h2⟩
      · obtain ⟨e', h1, h2, h3⟩ := hex
        rcases List.mem_cons.1 h1 with rfl | h1
        · obtain ⟨o', ho'⟩ := Option.ne_none_iff_exists'.1 h3
          push Not at hl
          exact ⟨[], e', l, o', rfl, h2, ho', hl⟩
        · exact absurd ⟨e', h1, h2, h3⟩ hl
  obtain ⟨pre, e', post, o', h1, h2, h3, h4⟩ := hsplit _ hreal
  have h5 := (C03_one_offset_record hn h hg h1 h2 h3 h4).2
  rw [h5] at hoff
  simp at hoff
  subst hoff
  -- the pair of events in the list of arrivals
  obtain ⟨a, ha, r, B, O, F, H⟩ := ended_old hn h
  have hmono : (s.added.map Prod.snd).Pairwise (· ≤ ·) := by rw [r.added]; exact B.mono
  have hspec : ∀ (l : List (Ev × Nat)) (pre : List Ev), (l.map Prod.snd).Pairwise (· ≤ ·) →
      ((l.filter fun x => x.1.part = tp).filterMap fun x => x.1.off).Pairwise (· < ·) →
      ((l.filter fun x => x.2 = g).map Prod.fst) = pre ++ e' :: post → (e, g') ∈ l → o < o' + 1 := by
    intro l
    induction l with
    | nil => intro _ _ _ _ hh; simp at hh
    | cons x l ih =>
      intro pre q1 q2 q3 q4
      have hxo : ∀ o1, x.1.part = tp → x.1.off = some o1 → ∀ y ∈ l, y.1.part = tp → ∀ o2, y.1.off = some o2 → o1 < o2 := by
        intro o1 k1 k2 y hy k3 o2 k4
        rw [List.filter_cons, if_pos (by simpa using k1), List.filterMap_cons, k2] at q2
        simp only [List.pairwise_cons] at q2
        refine q2.1 o2 ?_
        rw [List.mem_filterMap]
        exact ⟨y, by simp [hy, k3], k4⟩
      have q1' : (l.map Prod.snd).Pairwise (· ≤ ·) := by
        rw [List.map_cons, List.pairwise_cons] at q1; exact q1.2
      have q2' : ((l.filter fun x => x.1.part = tp).filterMap fun x => x.1.off).Pairwise (· < ·) := by
        rw [List.filter_cons] at q2
        split at q2
        · rw [List.filterMap_cons] at q2
          split at q2
          · exact q2
          · exact (List.pairwise_cons.1 q2).2
        · exact q2
      by_cases hx : x.2 = g
      · rw [List.filter_cons, if_pos (by simpa using hx), List.map_cons] at q3
        cases pre with
        | nil =>
          simp only [List.nil_append, List.cons.injEq] at q3
          obtain ⟨q5, q6⟩ := q3
          rcases List.mem_cons.1 q4 with q4 | q4
          · subst q4
            simp only at q5
            subst q5
            rw [ho] at h3; cases h3; omega
          · -- a later event has a larger transaction or is in `post`
            have q7 : g ≤ g' := by
              rw [List.map_cons, List.pairwise_cons] at q1
              have := q1.1 g' (List.mem_map.2 ⟨_, q4, rfl⟩)
              omega
            have q8 : g' = g := by omega
            subst q8
            have q9 : e ∈ post := by
              rw [← q6]
              exact List.mem_map.2 ⟨(e, g'), by simp [q4], rfl⟩
            rw [h4 e q9 hp] at ho; simp at ho
        | cons p pre' =>
          simp only [List.cons_append, List.cons.injEq] at q3
          rcases List.mem_cons.1 q4 with q4 | q4
          · -- `e` is the first one
            have q5 : (e', g) ∈ l := by
              have : e' ∈ (l.filter fun x => x.2 = g).map Prod.fst := by rw [q3.2]; simp
              obtain ⟨⟨y, gy⟩, k1, k2⟩ := List.mem_map.1 this
              simp only [List.mem_filter, decide_eq_true_eq] at k1
              simp only at k2
              obtain ⟨k3, k4⟩ := k1
              rw [← k2, ← k4]; exact k3
            subst q4
            have := hxo o hp ho _ q5 h2 o' h3
            omega
          · exact ih pre' q1' q2' q3.2 q4
      · rw [List.filter_cons, if_neg (by simpa using hx)] at q3
        rcases List.mem_cons.1 q4 with q4 | q4
        · have q5 : (e', g) ∈ l := by
            have : e' ∈ (l.filter fun x => x.2 = g).map Prod.fst := by rw [q3]; simp
            obtain ⟨⟨y, gy⟩, k1, k2⟩ := List.mem_map.1 this
            simp only [List.mem_filter, decide_eq_true_eq] at k1
            simp only at k2
            obtain ⟨k3, k4⟩ := k1
            rw [← k2, ← k4]; exact k3
          subst q4
          have := hxo o hp ho _ q5 h2 o' h3
          omega
        · exact ih pre q1' q2' q3 q4
  exact hspec _ _ hmono hinc h1 he

/-- The demonstration: one offset record for partition 5 in transaction 0, 11 = 10 + 1, after the record of the handler; the
record of transaction 1 follows. -/
example : ((run demoCfg (Pool.init demoCfg) demo).map fun s => s.sent) =
    some [⟨0, 5, .user 100⟩, ⟨0, 5, .commit 5 11⟩, ⟨1, 5, .user 200⟩] := by decide

/-- A transaction with an interjection only is ended without offset record, as aborted if nothing was produced. -/
example : ((run demoCfg (Pool.init demoCfg) [.add e1, .give, .check, .tick, .tryFlush, .take, .beginCommit [5], .wait, .complete e1, .wait,
    .endTxn [5]]).map fun s => (s.sent, s.ended)) = some ([], [(0, false)]) := by decide

/-! ### C04 -/

/-- **C04.** Transactions end in the order in which they were filled and none is skipped; events enter transactions in the order of
arrival, so later events are never in earlier transactions; no event is in two transactions or twice in one. -/
theorem C04_in_order {c : Cfg} (hn : 0 < c.poolSize) {s : Pool} (h : Reach c s) :
    s.ended.map Prod.fst = List.range s.ended.length ∧
    (s.added.map Prod.snd).Pairwise (· ≤ ·) ∧ (∀ x ∈ s.added, x.2 ≤ s.gen) ∧
    (s.added.map fun x => x.1.id).Nodup := by
  obtain ⟨a, ha, r, B, O, F, H⟩ := ended_old hn h
  refine ⟨?_, by rw [r.added]; exact B.mono, by rw [r.added, r.gen]; exact B.le, by rw [r.added]; exact B.ids⟩
  have h1 := F.ended
  rw [r.ended, h1]
  congr 1
  have := congrArg List.length h1
  simp only [List.length_map, List.length_range] at this
  exact this.symm

/-- **C04** (all of it). When a transaction has ended, all events that arrived before one of its events are in transactions that
have ended. -/
theorem C04_prefix {c : Cfg} (hn : 0 < c.poolSize) {s : Pool} (h : Reach c s) {l1 l2 l3 : List (Ev × Nat)} {x y : Ev × Nat}
    (hs : s.added = l1 ++ x :: l2 ++ y :: l3) (hy : y.2 ∈ s.ended.map Prod.fst) : x.2 ∈ s.ended.map Prod.fst := by
  obtain ⟨h1, h2, _⟩ := C04_in_order hn h
  rw [h1, List.mem_range] at hy ⊢
  rw [hs] at h2
  simp only [List.map_append, List.map_cons, List.append_assoc, List.cons_append] at h2
  have h3 := (List.pairwise_append.1 h2).2.1
  have := (List.pairwise_cons.1 h3).1 y.2 (by simp)
  omega

example : ((run demoCfg (Pool.init demoCfg) demo).map fun s => (s.gen, s.onDeck, s.free)) = some (1, 1, [0]) := by decide

/-! ### C05 -/

/-- **C05** (between transactions). The records of one partition reach the client in the order of the transactions. -/
theorem C05_transaction_order {c : Cfg} (hn : 0 < c.poolSize) {s : Pool} (h : Reach c s) (tp : Nat) :
    ((s.sent.filter fun o => o.part = tp).map Out.gen).Pairwise (· ≤ ·) := by
  obtain ⟨a, ha, r, B, O, F, H⟩ := ended_old hn h
  rw [r.sent]; exact O.order tp

/-- **C05** (within a transaction). What has reached the client of the records of a partition in a transaction is either nothing
(it is buffered) or all, in the order of production. -/
theorem C05_production_order {c : Cfg} (hn : 0 < c.poolSize) {s : Pool} (h : Reach c s) (g tp : Nat) :
    (s.sent.filter fun o => o.gen = g ∧ o.part = tp) = [] ∨
    (s.sent.filter fun o => o.gen = g ∧ o.part = tp) = s.calls.filter fun o => o.gen = g ∧ o.part = tp := by
  obtain ⟨a, ha, r, B, O, F, H⟩ := ended_old hn h
  rw [r.sent, r.calls]
  by_cases h1 : g < a.lo ∨ a.owner tp = some g ∨ (a.nodes g).has tp = false
  · exact .inr (O.flow g tp h1)
  · push Not at h1
    exact .inl (O.hold g tp h1.1 h1.2.1 (by simpa using h1.2.2)).1

/-- Transaction 1 produces first here; its record is held back until transaction 0 has ended. -/
example : ((run demoCfg (Pool.init demoCfg) (demo.take 20)).map fun s => (s.calls.map Out.gen, s.sent.map Out.gen)) =
    some ([0, 1, 0], [0, 0]) := by decide

/-! ### C06 -/

/-- Three events of partition 5 and one in front. -/
def b0 : Ev := ⟨10, 4, some 0⟩
def b1 : Ev := ⟨11, 4, some 1⟩
def b2 : Ev := ⟨12, 4, some 2⟩
def b3 : Ev := ⟨13, 4, some 3⟩
def b4 : Ev := ⟨14, 4, some 4⟩

/-- **C06** does not hold: `shouldForceFlush` compares with `==`. A handler that produces three records moves the larger counter
from below `MaxBatchSize = 2` to above it; while the commit queue is full the transaction keeps accepting events. -/
theorem C06_violated : ∃ (c : Cfg) (s : Pool), 0 < c.poolSize ∧ 0 < c.pending ∧ 0 < c.target ∧ c.target ≤ c.max ∧ Reach c s ∧
    c.max < ((s.added.filter fun x => x.2 = s.gen).length) := by
  let c : Cfg := ⟨3, 1, 1, 2⟩
  let ls : List Label := [.add b0, .give, .check, .tryFlush, .swapIn, .take, .add b1, .give, .check, .tryFlush, .swapIn,
    .add b2, .give, .produce b2 1, .produce b2 2, .produce b2 3, .check, .tryFlush,
    .add b3, .give, .check, .tryFlush, .add b4, .give]
  have hr : (run c (Pool.init c) ls).isSome := by decide
  obtain ⟨s, hs⟩ := Option.isSome_iff_exists.1 hr
  refine ⟨c, s, by decide, by decide, by decide, by decide, run_reach .init hs (by decide), ?_⟩
  have h2 : ((run c (Pool.init c) ls).map fun s => ((s.added.filter fun x => x.2 = s.gen).length)) = some 3 := by decide
  rw [hs] at h2
  simp only [Option.map_some, Option.some.injEq] at h2
  rw [h2]; decide

/-- **C06** (partial). The limit holds if the number of records of the transaction on deck is not above `MaxBatchSize` when
`tryFlush` looks at it, in particular if handlers produce at most one record per event. Missing: the general claim, which is
false (`C06_violated`). -/
theorem C06_bounded_partial {c : Cfg} (hn : 0 < c.poolSize) (ht : 0 < c.target) (hm : c.target ≤ c.max) {s : Pool}
    (h : ReachFew c s) (g : Nat) : (s.added.filter fun x => x.2 = g).length ≤ c.max := by
  obtain ⟨a, _, r, S⟩ := small_reach hn hm (by omega) h
  have := S.all g
  unfold evOf at this
  rw [List.length_map] at this
  rw [r.added]; exact this

/-- A run that meets the hypothesis and fills a transaction to the limit. -/
example : ((run ⟨3, 1, 1, 2⟩ (Pool.init ⟨3, 1, 1, 2⟩) [.add b0, .give, .check, .tryFlush, .swapIn, .take, .add b1, .give, .check, .tryFlush,
    .swapIn, .add b2, .give, .check, .tryFlush, .add b3, .give, .check, .tryFlush]).map fun s =>
      (s.fwd, (s.added.filter fun x => x.2 = s.gen).length)) = some (.force, 2) := by decide

/-! ### A failed commit that is answered with `Continue` -/

/-- Documented data loss: with `Continue` the events of a failed transaction are skipped although a later transaction of the
same partition commits a higher offset. The theorems above therefore exclude this answer. -/
theorem C04_continue_skips : ∃ s : Pool, (run ⟨2, 1, 1, 2⟩ (Pool.init ⟨2, 1, 1, 2⟩)
    [.add b0, .give, .complete b0, .check, .tryFlush, .swapIn, .take, .beginCommit [4], .wait, .wait, .commitFail true,
     .add b1, .give, .complete b1, .check, .tryFlush, .take, .beginCommit [4], .wait, .wait, .endTxn [4]]) = some s ∧
    s.ended = [(1, true)] := by
  have h : ((run ⟨2, 1, 1, 2⟩ (Pool.init ⟨2, 1, 1, 2⟩)
    [.add b0, .give, .complete b0, .check, .tryFlush, .swapIn, .take, .beginCommit [4], .wait, .wait, .commitFail true,
     .add b1, .give, .complete b1, .check, .tryFlush, .take, .beginCommit [4], .wait, .wait, .endTxn [4]]).map Pool.ended) =
      some [(1, true)] := by decide
  rw [Option.map_eq_some_iff] at h
  exact h

end Verif.Eos
