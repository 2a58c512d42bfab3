import Verif.Meter.Proofs
import Verif.Meter.Prepped
import Verif.Sync.Progress
/-
Property C83: the figures of the metrics (`streams/eos_producer.go:394-430`, `streams/source_consumer.go:146-171`,
`streams/metric.go:35-45`).
-/
set_option linter.unusedSimpArgs false
namespace Verif.Meter
open Verif.Eos

/-! ### Transactions -/

theorem reach_m {c : Cfg} (hn : 0 < c.poolSize) {size : Rec → Nat} {on : Bool} {t : Nat} {s : St} (h : Reach c size on t s) :
    Eos.Reach c s.pool ∧ s.on = on ∧ ∃ a, Base c.poolSize a ∧ Order c.poolSize a ∧ Eos.Fin a ∧ R c.poolSize s.pool a ∧ M c.poolSize size s a := by
  induction h with
  | init => exact ⟨.init, rfl, A.init, base_init hn, order_init, fin_init, sim_init hn, m_init size on t⟩
  | @step s s' l hr hl hs ih =>
    obtain ⟨hp, ho, a, B, O, F, r, hM⟩ := ih
    cases l with
    | tick d =>
      cases hs
      refine ⟨hp, ho, a, B, O, F, r, hM.acct, hM.zero, hM.landed, hM.first, hM.arr, fun p => Nat.le_trans (hM.past p) (Nat.le_add_right _ _),
        Nat.le_trans hM.begun (Nat.le_add_right _ _), hM.ord, hM.parts, ?_, hM.list, hM.off⟩
      intro m hm
      obtain ⟨g1, g2, g3, g4, g5, g6, g7, g8⟩ := hM.good m hm
      exact ⟨g1, g2, g3, g4, g5, g6, Nat.le_trans g7 (Nat.le_add_right _ _), g8⟩
    | ack i =>
      unfold step at hs
      simp only at hs
      split at hs
      · rename_i p o hi
        cases hs
        refine ⟨hp, ho, a, B, O, F, r, ?_, ?_, ?_, hM.first, hM.arr, hM.past, hM.begun, hM.ord, hM.parts, hM.good, hM.list, hM.off⟩
        · intro g k1 k2 k3
          rw [← hM.acct g k1 k2 k3, fly_erase size hi (g % c.poolSize)]
          dsimp only
          by_cases e : p = g % c.poolSize
          · rw [← e, upd_same, if_pos rfl]; omega
          · rw [upd_ne _ _ (fun h => e h.symm), if_neg e]; omega
        · intro k
          dsimp only
          rw [upd_ne]
          · exact hM.zero k
          · have := hM.landed (by omega) (p, o) (List.mem_of_getElem? hi)
            exact fun h => this h.symm
        · intro k x hx
          exact hM.landed k x (List.mem_of_mem_eraseIdx hx)
      · simp at hs
    | pool l =>
      have hl' : l ≠ .commitFail true := fun h => hl (by rw [h])
      obtain ⟨a', ha, r', hM'⟩ := m_step hn l hl' B O F r hM hs
      have hp' : Eos.Reach c s'.pool := by
        unfold step at hs
        simp only at hs
        split at hs
        · simp at hs
        · rename_i pool' hpp
          obtain ⟨s1, _, rfl⟩ := Option.map_eq_some_iff.1 hs
          exact .step l hp hl' hpp
      have ho' : s'.on = on := by
        unfold step at hs
        simp only at hs
        split at hs
        · simp at hs
        · obtain ⟨s1, h1, rfl⟩ := Option.map_eq_some_iff.1 hs
          rw [← ho]
          unfold note at h1
          repeat' split at h1
          all_goals first
            | (cases h1; rfl)
            | simp at h1
      exact ⟨hp', ho', a', base_step l B ha, order_step l B O ha, fin_step l B O F ha, r', hM'⟩

/-- **C83** (figures). A metric of a transaction is sent for a transaction that was committed. Its count is the number of all records in it,
its bytes are their sizes added up, and its number of partitions is the number of different partitions among its events. -/
theorem C83_figures_partial {c : Cfg} (hn : 0 < c.poolSize) {size : Rec → Nat} {on : Bool} {t : Nat} {s : St} (h : Reach c size on t s)
    {m : TxnMetric} (hm : m ∈ s.metrics) :
    (m.gen, true) ∈ s.pool.ended ∧
    m.count = (s.pool.sent.filter fun o => o.gen = m.gen).length ∧
    m.bytes = ((s.pool.sent.filter fun o => o.gen = m.gen).map fun o => size o.r).sum ∧
    m.partitions = (((s.pool.added.filter fun x => x.2 = m.gen).map fun x => x.1.part).dedup).length := by
  obtain ⟨hp, _, a, B, O, F, r, hM⟩ := reach_m hn h
  obtain ⟨g1, g2, g3, g4, _⟩ := hM.good m hm
  rw [← r.ended] at g1
  have hmem : m.gen ∈ s.pool.ended.map Prod.fst := List.mem_map.2 ⟨_, g1, rfl⟩
  have hpm := perm_of_parts (ended_sent hn hp hmem)
  refine ⟨g1, ?_, ?_, ?_⟩
  · rw [g2, hpm.length_eq, r.calls]
  · rw [g3, ← r.calls]
    exact (tot_perm size hpm).symm
  · rw [g4, r.added]
    unfold evOf
    rw [List.map_map]
    rfl

/-- **C83** (times). The metric starts when the first event was added to the transaction, the commit begins not before that and ends not
before it begins; all of this was in the past. -/
theorem C83_times_partial {c : Cfg} (hn : 0 < c.poolSize) {size : Rec → Nat} {on : Bool} {t : Nat} {s : St} (h : Reach c size on t s)
    {m : TxnMetric} (hm : m ∈ s.metrics) :
    ((s.arrivals.filter fun x => x.1 = m.gen).head?).map Prod.snd = some m.start ∧ m.start ≤ m.execute ∧ m.execute ≤ m.fin ∧ m.fin ≤ s.now := by
  obtain ⟨hp, _, a, B, O, F, r, hM⟩ := reach_m hn h
  obtain ⟨_, _, _, _, g5, g6, g7, g8⟩ := hM.good m hm
  refine ⟨?_, g5, g6, g7⟩
  rw [List.head?_filter]
  exact g8

/-- The times that are recorded for the events are those at which they were added: one for each event, with its transaction, in order. -/
theorem C83_arrivals_partial {c : Cfg} (hn : 0 < c.poolSize) {size : Rec → Nat} {on : Bool} {t : Nat} {s : St} (h : Reach c size on t s) :
    s.arrivals.map Prod.fst = s.pool.added.map Prod.snd := by
  obtain ⟨hp, _, a, B, O, F, r, hM⟩ := reach_m hn h
  rw [hM.arr, r.added]

/-- **C83** (one each). If a handler is configured, then outside `clearState` one metric has been sent for every committed transaction, in
the order of the commits, and none for transactions without records. -/
theorem C83_one_each_partial {c : Cfg} (hn : 0 < c.poolSize) {size : Rec → Nat} {t : Nat} {s : St} (h : Reach c size true t s)
    (hq : ∀ p rest, s.pool.com ≠ .relinq p rest) :
    s.metrics.map TxnMetric.gen = (s.pool.ended.filter fun x => x.2 = true).map Prod.fst := by
  obtain ⟨hp, ho, a, B, O, F, r, hM⟩ := reach_m hn h
  have hph : ph a.com ≠ 2 := by
    intro hc
    have := r.com
    generalize a.com = cm at hc this
    cases cm <;> simp [ph] at hc
    exact hq _ _ this
  rw [hM.list ho, r.ended]
  unfold due
  rw [if_neg hph]
  congr 1
  apply List.filter_congr
  intro x _
  cases x.2 <;> rfl

/-- **C83** (none). Without a handler no metric is sent. -/
theorem C83_none_partial {c : Cfg} (hn : 0 < c.poolSize) {size : Rec → Nat} {t : Nat} {s : St} (h : Reach c size false t s) :
    s.metrics = [] := by
  obtain ⟨_, ho, a, B, O, F, r, hM⟩ := reach_m hn h
  exact hM.off ho

/-- Two events of different partitions, three records of the application; the callback of one record comes after time has passed. -/
def demo : List Act :=
  [.tick 5, .pool (.add ⟨0, 5, some 10⟩), .tick 2, .pool .give, .pool (.produce ⟨0, 5, some 10⟩ 100), .pool .check,
   .pool (.add ⟨1, 7, some 3⟩), .pool .give, .pool (.produce ⟨1, 7, some 3⟩ 200), .pool (.produce ⟨1, 7, some 3⟩ 300), .pool .check, .pool .tryFlush, .pool .swapIn,
   .ack 1, .tick 1, .pool .take, .pool (.beginCommit [7, 5]), .pool (.complete ⟨0, 5, some 10⟩), .pool (.complete ⟨1, 7, some 3⟩), .pool .wait, .pool .wait, .pool .wait,
   .pool .wait, .tick 3, .ack 0, .ack 0, .ack 0, .ack 0, .pool (.endTxn [5, 7]), .pool .release, .pool .release, .tick 1, .pool .release,
   .pool .giveBack]

/-- Sizes for the demonstration. -/
def demoSize : Rec → Nat
  | .user x => x
  | .commit _ _ => 7

theorem run_reach {c : Cfg} {size : Rec → Nat} {on : Bool} {t : Nat} : ∀ {ls : List Act} {s s' : St}, Reach c size on t s →
    run c size s ls = some s' → Act.pool (.commitFail true) ∉ ls → Reach c size on t s' := by
  intro ls
  induction ls with
  | nil => intro s s' h hr _; cases hr; exact h
  | cons l ls ih =>
    intro s s' h hr hl
    simp only [run, Option.bind_eq_some_iff] at hr
    obtain ⟨s1, h1, h2⟩ := hr
    simp only [List.mem_cons, not_or] at hl
    exact ih (.step l h (fun e => hl.1 e.symm) h1) h2 hl.2

example : ∃ s, Reach ⟨2, 1, 2, 4⟩ demoSize true 1 s ∧ s.metrics = [⟨0, 6, 9, 13, 5, 614, 2⟩] := by
  have hd : ∃ s, run ⟨2, 1, 2, 4⟩ demoSize (St.init ⟨2, 1, 2, 4⟩ true 1) demo = some s ∧ s.metrics = [⟨0, 6, 9, 13, 5, 614, 2⟩] :=
    ⟨_, rfl, by decide +kernel⟩
  obtain ⟨s, h1, h2⟩ := hd
  exact ⟨s, run_reach .init h1 (by decide), h2⟩

/-! ### Preparations -/

open Verif.Record Verif.Sync

/-- Specification: the changes among the records of a change log. -/
def Spec.changes (l : List KRecord) : List KRecord := l.filter fun r => !isMarkerRecord r

/-- A preparation that begins in `s0`: nothing interferes with it, see `Verif.Sync.Sess`. -/
inductive PSess (s0 : PS) (fresh : Bool) : PS → Prop where
  | start {s : PS} : s0.seen = none → s0.report = none → pstep s0 (.sync (.prep .prepping fresh)) = some s → PSess s0 fresh s
  | step {s s' : PS} (l : PLabel) : PSess s0 fresh s → (∀ k, l = .sync k → within k = true) → pstep s l = some s' → PSess s0 fresh s'

/-- The counters of a preparation. -/
structure PInv (s0 : PS) (fresh : Bool) (s : PS) : Prop where
  sess : Sess s0.ss .prepping fresh s.ss
  grown : ∃ l, s.ss.applied = (if fresh then [] else s0.ss.applied) ++ l ∧ s.count = l.length ∧ s.bytes = (l.map recordSize).sum
  seen : ∀ c, s.seen = some c → ∃ m s1, m ∈ s1.synced ∧ Sess s0.ss .prepping fresh s1 ∧ Later s1 s.ss ∧
    c + (if fresh then [] else s0.ss.applied).length = s1.applied.length
  none : s.seen = none → s.report = none

theorem grow_step {s s' : SS} {l : Sync.Label} (h : Sync.step s l = some s') (hw : within l = true) (c b : Nat) :
    ∃ x, s'.applied = s.applied ++ x ∧ tally s l c b = (c + x.length, b + (x.map recordSize).sum) := by
  have hkill : ∀ z : SS, (kill z).applied = z.applied := by
    intro z; unfold kill; split <;> rfl
  have hcomp : ∀ (z : SS) (m : Bytes), (completion z m).1.applied = z.applied := by
    intro z m
    unfold completion
    split
    · dsimp only
      split
      · rfl
      · unfold cancel; rw [hkill]
      · rfl
    · rfl
  cases l with
  | prep st f => simp [within] at hw
  | cancel => simp [within] at hw
  | record i =>
    unfold Sync.step at h
    simp only at h
    split at h
    · rename_i ch r rest hp
      cases h
      unfold handle
      by_cases hm : isMarkerRecord r = true
      · refine ⟨[], ?_, ?_⟩
        · rw [if_pos hm]
          simp [hcomp]
        · simp [tally, hp, hm]
      · refine ⟨[r], ?_, ?_⟩
        · rw [if_neg hm]
        · simp [tally, hp, hm]
    · simp at h
  | _ =>
    refine ⟨[], ?_, by simp [tally]⟩
    unfold Sync.step at h
    simp only at h
    repeat' split at h
    all_goals first
      | (cases h; simp)
      | simp at h

theorem pinv {s0 s : PS} {fresh : Bool} (h : PSess s0 fresh s) : PInv s0 fresh s := by
  induction h with
  | start h1 h2 h3 =>
    simp only [pstep] at h3
    obtain ⟨ss', hs, rfl⟩ := Option.map_eq_some_iff.1 h3
    have hs' := hs
    unfold Sync.step at hs'
    cases hs'
    exact ⟨.start hs, ⟨[], by simp, by simp [tally], by simp [tally]⟩, (by intro c hc; dsimp only at hc; rw [h1] at hc; cases hc), fun _ => h2⟩
  | @step s s' l hr hw hs ih =>
    cases l with
    | sync k =>
      simp only [pstep] at hs
      obtain ⟨ss', hk, rfl⟩ := Option.map_eq_some_iff.1 hs
      have hwk := hw k rfl
      obtain ⟨l, g1, g2, g3⟩ := ih.grown
      obtain ⟨x, k1, k2⟩ := grow_step hk hwk s.count s.bytes
      refine ⟨.step k ih.sess hwk hk, ⟨l ++ x, ?_, ?_, ?_⟩, ?_, ih.none⟩
      · dsimp only; rw [k1, g1, List.append_assoc]
      · dsimp only; rw [k2, g2]; simp
      · dsimp only; rw [k2, g3]; simp
      · intro c hc
        obtain ⟨m, s1, j1, j2, j3, j4⟩ := ih.seen c hc
        exact ⟨m, s1, j1, j2, .step k j3 hwk hk, j4⟩
    | read m =>
      simp only [pstep] at hs
      split at hs
      · rename_i hc
        cases hs
        refine ⟨ih.sess, ih.grown, ?_, fun h => by cases h⟩
        intro c hcc
        cases hcc
        obtain ⟨l, g1, g2, g3⟩ := ih.grown
        exact ⟨m, s.ss, hc.1, ih.sess, .refl _, by rw [g1, g2, List.length_append]; omega⟩
      · simp at hs
    | report =>
      simp only [pstep] at hs
      split at hs
      · rename_i c hc hr'
        cases hs
        exact ⟨ih.sess, ih.grown, ih.seen, fun h => by dsimp only at h; rw [hc] at h; cases h⟩
      · simp at hs

/-- All bytes that a record holds: key, value, and the keys and values of its headers. -/
def Spec.allBytes (r : KRecord) : Bytes := r.key ++ r.value.getD [] ++ r.headers.flatMap fun h => h.key ++ h.value

/-- **C83** (size of a record). The size is the number of all bytes that a record holds. -/
theorem C83_size (r : KRecord) : recordSize r = (Spec.allBytes r).length := by
  have key : ∀ (hs : List Header) (n : Nat), hs.foldl (fun n h => n + h.key.length + h.value.length) n = n + (hs.flatMap fun h => h.key ++ h.value).length := by
    intro hs
    induction hs with
    | nil => simp
    | cons h hs ih => intro n; rw [List.foldl_cons, ih]; simp [List.flatMap_cons]; omega
  simp only [recordSize, Spec.allBytes, key, List.length_append]

example : recordSize { topic := [], partition := 0, key := [1, 2], value := some [3], headers := [⟨[4], [5, 6]⟩, ⟨[7], []⟩] } = 7 := by decide

/-- **C83** (counters of a preparation). In a preparation that starts with the partition at rest and that nothing interferes with, the
counters are at every moment the number of the changes that the store has received, which are those of an initial part of the change log,
and their sizes added up. -/
theorem C83_counters_partial {s0 s : PS} {fresh : Bool} (hc : Clean s0.ss) (h : PSess s0 fresh s) :
    ∃ d, d <+: s.ss.log ∧ s.ss.applied = (if fresh then [] else s0.ss.applied) ++ Spec.changes d ∧
      s.count = (Spec.changes d).length ∧ s.bytes = ((Spec.changes d).map recordSize).sum := by
  have I := pinv h
  obtain ⟨ms, d, C, _⟩ := inv_sess (.inr rfl) hc I.sess
  obtain ⟨l, g1, g2, g3⟩ := I.grown
  have ha : s.ss.applied = (if fresh then [] else s0.ss.applied) ++ Spec.changes d := C.applied
  have hl : l = Spec.changes d := by
    rw [g1] at ha
    exact List.append_cancel_left ha
  subst hl
  exact ⟨d, C.pre, ha, g2, g3⟩

/-- **C83** (count of a preparation). When the goroutine of the preparation reads the count, the synchronisation for some mark has
returned, and the count covers all changes that precede this mark in the change log. -/
theorem C83_prepared_partial {s0 s s' : PS} {fresh : Bool} {m : Bytes} (hc : Clean s0.ss) (hn : m ∉ s0.ss.synced) (h : PSess s0 fresh s)
    (hr : pstep s (.read m) = some s') :
    ∃ before r after d, s.ss.log = before ++ r :: after ∧ isMarkerRecord r = true ∧ markOf r = m ∧ before <+: d ∧ d <+: s.ss.log ∧
      s'.seen = some (Spec.changes d).length := by
  simp only [pstep] at hr
  split at hr
  · rename_i hcond
    cases hr
    have I := pinv h
    obtain ⟨ms, d, C, _⟩ := inv_sess (.inr rfl) hc I.sess
    have hm := hcond.1
    rw [C.synced, List.mem_append] at hm
    obtain ⟨_, r, k1, k2, k3⟩ := mem_found.1 (hm.resolve_left hn)
    obtain ⟨x, y, rfl⟩ := List.append_of_mem k1
    obtain ⟨t, ht⟩ := C.pre
    refine ⟨x, r, y ++ t, x ++ r :: y, by rw [← ht]; simp, k2, k3, List.prefix_append _ _, C.pre, ?_⟩
    obtain ⟨l, g1, g2, g3⟩ := I.grown
    have ha : s.ss.applied = (if fresh then [] else s0.ss.applied) ++ Spec.changes (x ++ r :: y) := C.applied
    rw [g1] at ha
    have hl := List.append_cancel_left ha
    subst hl
    dsimp only
    rw [g2]
  · simp at hr

private def chg (n : Nat) : KRecord := { key := [BitVec.ofNat 8 n], value := some [] }
private def mark : Bytes := [1#8]
private def p0 : PS := ⟨SS.init [chg 1], 0, 0, none, none⟩
private def thru : List PLabel := [.sync .check, .sync .eval, .sync .send]

private theorem prun_sess {s0 : PS} {fresh : Bool} : ∀ {ls : List PLabel} {s s' : PS}, PSess s0 fresh s → prun s ls = some s' →
    (∀ l ∈ ls, ∀ k, l = .sync k → within k = true) → PSess s0 fresh s' := by
  intro ls
  induction ls with
  | nil => intro s s' h hr _; cases hr; exact h
  | cons l ls ih =>
    intro s s' h hr hl
    simp only [prun, Option.bind_eq_some_iff] at hr
    obtain ⟨s1, h1, h2⟩ := hr
    exact ih (.step l h (hl l (by simp)) h1) h2 (fun x hx => hl x (by simp [hx]))

/-- C83 is violated: the bytes are read after the count (167 and 153), while changes are still arriving. The metric of an undisturbed
preparation reports one change, and the bytes of two. -/
theorem C83_violated_prepared : ∃ s1 s, pstep p0 (.sync (.prep .prepping true)) = some s1 ∧ Clean p0.ss ∧
    prun s1 ([.sync (.sync mark), .sync (.produce mark), .sync (.poll 1)] ++ thru ++ [.sync (.next 0), .sync (.record 0), .sync (.record 0), .read mark] ++
      [.sync (.append (chg 2)), .sync (.poll 0)] ++ thru ++ [.sync (.next 0), .sync (.record 0), .report]) = some s ∧
    PSess p0 true s ∧ s.report = some (1, 2) ∧ ∀ n, recordSize (chg n) = 1 := by
  have hd : ∃ s1 s, pstep p0 (.sync (.prep .prepping true)) = some s1 ∧
    prun s1 ([.sync (.sync mark), .sync (.produce mark), .sync (.poll 1)] ++ thru ++ [.sync (.next 0), .sync (.record 0), .sync (.record 0), .read mark] ++
      [.sync (.append (chg 2)), .sync (.poll 0)] ++ thru ++ [.sync (.next 0), .sync (.record 0), .report]) = some s ∧
    s.report = some (1, 2) := ⟨_, _, rfl, rfl, by decide +kernel⟩
  obtain ⟨s1, s, h1, h2, h3⟩ := hd
  refine ⟨s1, s, h1, ⟨rfl, rfl, rfl, by decide, rfl, rfl⟩, h2, prun_sess (.start rfl rfl h1) h2 ?_, h3, fun n => rfl⟩
  simp [thru, within]

/-! ### Durations -/

/-- **C83** (durations). For a metric that the handler gets, the time spent waiting and the time spent executing add up to the duration,
provided that its times lie within 292 years (2^63 nanoseconds) of one another. -/
theorem C83_durations_partial (m : Times)
    (h : ∀ x ∈ [m.start, m.handed.execute, m.fin], ∀ y ∈ [m.start, m.handed.execute, m.fin], x - y < 2 ^ 63) :
    m.handed.linger + m.handed.executeDuration = m.handed.duration ∧ m.handed.duration = m.fin - m.start := by
  have hs : m.handed.start = m.start ∧ m.handed.fin = m.fin := by unfold Times.handed; split <;> exact ⟨rfl, rfl⟩
  have hx : ∀ a b : Int, a - b < 2 ^ 63 → b - a < 2 ^ 63 → sub a b = a - b := by
    intro a b h1 h2
    unfold sub
    rw [if_neg (by omega), if_neg (by omega)]
  simp only [List.mem_cons, List.not_mem_nil, or_false, forall_eq_or_imp, forall_eq] at h
  obtain ⟨⟨_, h1, h2⟩, ⟨h3, _, h4⟩, h5, h6, _⟩ := h
  unfold Times.linger Times.executeDuration Times.duration
  rw [hs.1, hs.2, hx _ _ h3 h1, hx _ _ h6 h4, hx _ _ h5 h2]
  constructor <;> omega

/-- **C83** (no execution time). A metric without an execution time, such as the one of a preparation, is handed to the handler as one that
did not wait: its whole duration is execution, whatever its times are. -/
theorem C83_no_execution_partial (m : Times) (h : m.execute = 0) :
    m.handed.linger = 0 ∧ m.handed.executeDuration = m.handed.duration := by
  have hh : m.handed = { m with execute := m.start } := by unfold Times.handed; rw [if_pos h]
  rw [hh]
  unfold Times.linger Times.executeDuration Times.duration sub
  dsimp only
  constructor
  · rw [if_neg (by omega), if_neg (by omega)]; omega
  · rfl

/-- The limit is needed: with a start time of zero (the year 1) and an execution time in this century the two parts add up to more than the
duration. -/
example : (⟨0, 63900000000000000000, 63900000000000000001⟩ : Times).handed.linger + (⟨0, 63900000000000000000, 63900000000000000001⟩ : Times).handed.executeDuration ≠
    (⟨0, 63900000000000000000, 63900000000000000001⟩ : Times).handed.duration := by decide

/-- The hypotheses are met by a metric of this century. -/
example : (⟨63900000000000000000, 63900000000000000002, 63900000000000000005⟩ : Times).handed.linger = 2 ∧
    (⟨63900000000000000000, 0, 63900000000000000005⟩ : Times).handed.executeDuration = 5 := by decide

end Verif.Meter
