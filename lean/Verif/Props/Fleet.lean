import Verif.Fleet.Once
/-
Properties C93 and C94: a group of consumers. For every number of consumers and of transactional producers, every batch size, every
interleaving, every application and every source topic with increasing offsets; consumers start, die, get and lose partitions at any time.
-/
namespace Verif.Fleet
open Verif.Eos Verif.Exact Verif.Effects

variable {c : Cfg} {src : Nat → List Nat}

/-! ### Runs that meet the hypotheses

Partition 5 has records at 10, 12 and 17. Consumer 0 commits 10 and loses the partition with nothing open; consumer 1 adds 12 and dies; consumer 0
gets the partition again, starts at 12 and commits it. -/

def demoSrc : Nat → List Nat := fun tp => if tp = 5 then [10, 12, 17] else []

def demoCfg : Cfg := ⟨2, 1, 1, 2⟩

/-- Consumer `k` adds its next record of partition 5 as event `e`, produces `v` for it and commits; this takes all of a transaction. -/
def handle (k id o v : Nat) : List Act :=
  [.feed k 5 id, .pool k .give, .emit k ⟨id, 5, some o⟩ v, .pool k .check, .pool k .tryFlush, .pool k .swapIn]

def commit (k id o : Nat) : List Act :=
  [.pool k .take, .pool k (.beginCommit [5]), .pool k .wait, .pool k (.complete ⟨id, 5, some o⟩), .pool k .wait, .pool k (.endTxn [5]),
   .pool k .release, .pool k .release, .pool k .giveBack]

def demo : List Act :=
  [.start, .start, .assign 0 5 0] ++ handle 0 0 10 100 ++ commit 0 0 10 ++ [.revoke 0 5, .assign 1 5 11] ++ handle 1 0 12 200 ++
    [.crash 1, .assign 0 5 11] ++ handle 0 1 12 201 ++ commit 0 1 12

theorem run_reach {w w' : World} {as : List Act} (h : Reach c src w) (hr : run c src w as = some w') : Reach c src w' := by
  induction as generalizing w with
  | nil => cases hr; exact h
  | cons a as ih =>
    simp only [run, Option.bind_eq_some_iff] at hr
    obtain ⟨w1, h1, h2⟩ := hr
    exact ih (.step a h h1) h2

example : ∀ tp, (demoSrc tp).Pairwise (· < ·) := by
  intro tp; unfold demoSrc; split <;> decide

example : ∃ w, Reach demoCfg demoSrc w ∧ w.log 5 = [11, 13] ∧ w.effects 5 10 = [100] ∧ w.effects 5 12 = [201] ∧ w.effects 5 17 = [] ∧
    w.work 0 5 = some [17] ∧ w.alive 1 = false := by
  have hd : ∃ w, run demoCfg demoSrc (World.init demoCfg) demo = some w ∧ w.log 5 = [11, 13] ∧ w.effects 5 10 = [100] ∧
      w.effects 5 12 = [201] ∧ w.effects 5 17 = [] ∧ w.work 0 5 = some [17] ∧ w.alive 1 = false :=
    ⟨_, rfl, by decide +kernel, by decide +kernel, by decide +kernel, by decide +kernel, by decide +kernel, by decide +kernel⟩
  obtain ⟨w, h1, h2⟩ := hd
  exact ⟨w, run_reach .init h1, h2⟩

/-! ### C93: nothing is skipped -/

/-- **C93** (nothing is skipped). Every source record below an offset record in the commit log has been committed by some consumer, whoever had the
partition when, and even if several had it at a time. -/
theorem C93_not_skipped (hn : 0 < c.poolSize) (hsrc : ∀ tp, (src tp).Pairwise (· < ·)) {w : World} (h : Reach c src w) {tp x o : Nat}
    (hx : x ∈ w.log tp) (ho : o ∈ src tp) (hlt : o < x) : w.Handled tp o :=
  (noLoss_reach hn hsrc h).lg tp x hx o ho hlt

/-- **C93** (nothing is forgotten). While a consumer has a worker for a partition, every source record has been committed by some consumer, or is in
the pool of this one, or will be fetched by the worker. -/
theorem C93_covered (hn : 0 < c.poolSize) (hsrc : ∀ tp, (src tp).Pairwise (· < ·)) {w : World} (h : Reach c src w) {k tp o : Nat} {l : List Nat}
    (hw : w.work k tp = some l) (ho : o ∈ src tp) :
    w.Handled tp o ∨ (∃ e g, (e, g) ∈ (w.inst k).pool.added ∧ e.part = tp ∧ e.off = some o) ∨ o ∈ l := by
  rcases ((noLoss_reach hn hsrc h).wk k tp l hw).2 o ho with h1 | h1 | h1
  · exact .inr (.inr h1)
  · exact .inl h1
  · exact .inr (.inl (mem_own.1 h1))

open Classical in
/-- **C93** (all or nothing). Of every event of every consumer readers see either nothing, or, if its transaction was committed, all records that
were produced for it, in the order of production; then the event is complete. -/
theorem C93_atomic (hn : 0 < c.poolSize) {w : World} (h : Reach c src w) (k : Nat) (e : Ev) :
    (((w.inst k).seen e.part).filter fun x => x.1 = e).map Prod.snd = (if (w.inst k).Committed e then (w.inst k).made e else []) ∧
    ((w.inst k).Committed e → e.id ∈ (w.inst k).pool.done) := by
  have C := cores hn h k
  refine ⟨seen_event hn (C.inc fun _ => []) e, ?_⟩
  rintro ⟨g, h1, h2⟩
  exact ended_done hn C.reach (List.mem_map.2 ⟨_, h2, rfl⟩) _ h1

/-- **C93** (for good). No step of the group, no crash and no reassignment, undoes a commit or changes the records that go with it. -/
theorem C93_kept (hn : 0 < c.poolSize) {w w' : World} (h : Reach c src w) {a : Act} (hs : step c src w a = some w') (k : Nat) (e : Ev)
    (he : (w.inst k).Committed e) : (w'.inst k).Committed e ∧ (w'.inst k).made e = (w.inst k).made e :=
  keep_step hn (cores hn h) hs k e he

/-- The hypotheses of `C93_not_skipped`, `C93_covered` and `C93_kept` in the run of above. -/
example : ∃ w, Reach demoCfg demoSrc w ∧ 13 ∈ w.log 5 ∧ 12 ∈ demoSrc 5 ∧ w.work 0 5 = some [17] ∧ 17 ∈ demoSrc 5 ∧
    (w.inst 0).Committed ⟨1, 5, some 12⟩ ∧ (w.inst 0).made ⟨1, 5, some 12⟩ = [201] ∧ (step demoCfg demoSrc w (.crash 0)).isSome := by
  have hd : ∃ w, run demoCfg demoSrc (World.init demoCfg) demo = some w ∧ 13 ∈ w.log 5 ∧ 12 ∈ demoSrc 5 ∧ w.work 0 5 = some [17] ∧
      17 ∈ demoSrc 5 ∧ ((⟨1, 5, some 12⟩, 1) ∈ (w.inst 0).pool.added ∧ (1, true) ∈ (w.inst 0).pool.ended) ∧
      (w.inst 0).made ⟨1, 5, some 12⟩ = [201] ∧ (step demoCfg demoSrc w (.crash 0)).isSome :=
    ⟨_, rfl, by decide +kernel, by decide +kernel, by decide +kernel, by decide +kernel, by decide +kernel, by decide +kernel, by decide +kernel⟩
  obtain ⟨w, h1, h2, h3, h4, h5, h6, h7⟩ := hd
  exact ⟨w, run_reach .init h1, h2, h3, h4, h5, ⟨1, h6⟩, h7⟩

/-! ### C94: exactly once -/

/-- A start that can be seen to be orderly. -/
def orderlyB (w : World) : Act → Bool
  | .assign _ tp x => x == w.wm tp && (List.range w.n).all fun j => !w.alive j || ((w.work j tp).isNone &&
      (w.inst j).pool.added.all fun y => decide (y.1.part ≠ tp) || y.1.off.isNone || decide ((y.2, true) ∈ (w.inst j).pool.ended))
  | _ => true

theorem orderlyB_orderly {w : World} {a : Act} (h : orderlyB w a = true) : Orderly w a := by
  cases a with
  | assign k tp x =>
    simp only [orderlyB, Bool.and_eq_true, beq_iff_eq] at h
    refine ⟨h.1, fun j hj => ?_⟩
    have h2 := List.all_eq_true.1 h.2 j (List.mem_range.2 (alive_lt hj).1)
    rw [hj] at h2
    simp only [Bool.not_true, Bool.false_or, Bool.and_eq_true, List.all_eq_true] at h2
    refine ⟨by simpa using h2.1, ?_⟩
    rintro ⟨e, g, h3, h4, h5, h6⟩
    have := h2.2 (e, g) h3
    cases ho : e.off with
    | none => exact h5 ho
    | some o => simp [h4, ho, h6] at this
  | _ => exact trivial

/-- A run with orderly starts. -/
def runB (c : Cfg) (src : Nat → List Nat) (w : World) : List Act → Option World
  | [] => some w
  | a :: as => if orderlyB w a then (step c src w a).bind fun w' => runB c src w' as else none

theorem runB_calm {w w' : World} {as : List Act} (h : Calm c src w) (hr : runB c src w as = some w') : Calm c src w' := by
  induction as generalizing w with
  | nil => cases hr; exact h
  | cons a as ih =>
    simp only [runB] at hr
    split at hr
    · rename_i ho
      obtain ⟨w1, h1, h2⟩ := Option.bind_eq_some_iff.1 hr
      exact ih (.step a h (orderlyB_orderly ho) h1) h2
    · cases hr

/-- The starts of the run of above are orderly: the condition of the theorems below can be met, with a hand-over, a crash and a return. At the end
consumer 0 has 17 open. -/
example : ∃ w, Calm demoCfg demoSrc w ∧ w.wm 5 = 13 ∧ w.effects 5 12 = [201] ∧ w.alive 0 = true ∧ w.work 0 5 = some [] ∧
    (⟨2, 5, some 17⟩, 2) ∈ (w.inst 0).pool.added := by
  have hd : ∃ w, runB demoCfg demoSrc (World.init demoCfg) (demo ++ handle 0 2 17 300) = some w ∧ w.wm 5 = 13 ∧ w.effects 5 12 = [201] ∧
      w.alive 0 = true ∧ w.work 0 5 = some [] ∧ (⟨2, 5, some 17⟩, 2) ∈ (w.inst 0).pool.added :=
    ⟨_, rfl, by decide +kernel, by decide +kernel, by decide +kernel, by decide +kernel, by decide +kernel⟩
  obtain ⟨w, h1, h2⟩ := hd
  exact ⟨w, runB_calm .init h1, h2⟩

theorem committed_same {w : World} {last : Nat → Option Nat} (O : Once c src w last) {k : Nat} {e e' : Ev} {o : Nat}
    (h1 : (w.inst k).Committed e) (h2 : (w.inst k).Committed e') (hp : e.part = e'.part) (ho : e.off = some o) (ho' : e'.off = some o) : e = e' := by
  obtain ⟨g, he, -⟩ := h1
  obtain ⟨g', he', -⟩ := h2
  by_contra hne
  have key : ∀ (l : List (Ev × Nat)), ((l.filter fun x => x.1.part = e.part).filterMap fun x => x.1.off).Pairwise (· < ·) →
      (e, g) ∈ l → (e', g') ∈ l → False := by
    intro l
    induction l with
    | nil => intro _ h; simp at h
    | cons x l ih =>
      intro hl h1 h2
      have hmem : ∀ (d : Ev) (k : Nat), (d, k) ∈ l → d.part = e.part → d.off = some o →
          o ∈ (l.filter fun x => x.1.part = e.part).filterMap fun x => x.1.off := by
        intro d k hd hdp hdo
        exact List.mem_filterMap.2 ⟨(d, k), List.mem_filter.2 ⟨hd, by simpa using hdp⟩, hdo⟩
      rcases List.mem_cons.1 h1 with h3 | h3 <;> rcases List.mem_cons.1 h2 with h4 | h4
      · exact hne (congrArg Prod.fst (h3.trans h4.symm))
      · subst h3
        rw [List.filter_cons_of_pos (by simp), List.filterMap_cons, ho] at hl
        have := (List.pairwise_cons.1 hl).1 o (hmem e' g' h4 hp.symm ho')
        omega
      · subst h4
        rw [List.filter_cons_of_pos (by simpa using hp.symm), List.filterMap_cons, ho'] at hl
        have := (List.pairwise_cons.1 hl).1 o (hmem e g h3 rfl ho)
        omega
      · refine ih ?_ h3 h4
        by_cases hx : x.1.part = e.part
        · rw [List.filter_cons_of_pos (by simpa using hx)] at hl
          cases hxo : x.1.off with
          | none => rwa [List.filterMap_cons, hxo] at hl
          | some o => rw [List.filterMap_cons, hxo] at hl; exact (List.pairwise_cons.1 hl).2
        · rwa [List.filter_cons_of_neg (by simpa using hx)] at hl
  exact key _ (O.ord k e.part) he he'

/-- **C94**, in part (exactly once). If workers start in order (no living consumer has a worker for the partition or has uncommitted records of it, and
the newest offset record is read), every source record below the newest offset record was committed by exactly one consumer, as exactly one event,
and what readers see for it, from all consumers, is what it produced there. Missing: the condition (see `C94_violated`). -/
theorem C94_once_partial (hn : 0 < c.poolSize) (hsrc : ∀ tp, (src tp).Pairwise (· < ·)) {w : World} (h : Calm c src w) {tp o : Nat}
    (ho : o ∈ src tp) (hw : o < w.wm tp) :
    ∃ k e, k < w.n ∧ e.part = tp ∧ e.off = some o ∧ (w.inst k).Committed e ∧ w.effects tp o = (w.inst k).made e ∧
      ∀ k' e', e'.part = tp → e'.off = some o → (w.inst k').Committed e' → k' = k ∧ e' = e := by
  obtain ⟨last, O⟩ := once_calm hn hsrc h
  have hx : w.wm tp ∈ w.log tp := by
    unfold World.wm at hw ⊢
    cases hl : (w.log tp).getLast? with
    | none => rw [hl] at hw; simp at hw
    | some x => exact List.mem_of_getLast? hl
  obtain ⟨k, e, he, hp, heo⟩ := C93_not_skipped hn hsrc h.reach hx ho hw
  have hk : k < w.n := by
    by_contra hc
    rw [O.unborn k (by omega)] at he
    obtain ⟨g, h1, -⟩ := he
    simp [Inc.start, Pool.init] at h1
  have huniq : ∀ k' e', e'.part = tp → e'.off = some o → (w.inst k').Committed e' → k' = k ∧ e' = e := by
    intro k' e' hp' ho' he'
    have hkk := O.uniq k' k e' e o he' he (hp'.trans hp.symm) ho' heo
    subst hkk
    exact ⟨rfl, committed_same O he' he (hp'.trans hp.symm) ho' heo⟩
  refine ⟨k, e, hk, hp, heo, he, ?_, huniq⟩
  have hat : ((List.range w.n).map w.inst)[k]? = some (w.inst k) := by simp [hk]
  unfold World.effects effectsAt
  rw [flatMap_single hat]
  · have h1 := (C93_atomic hn h.reach k e).1
    rw [if_pos he, hp] at h1
    rw [← h1]
    congr 1
    apply List.filter_congr
    intro x hx
    rw [decide_eq_decide]
    constructor
    · intro hxo
      obtain ⟨q1, q2⟩ := seen_committed hn ((cores hn h.reach k).inc fun _ => []) hx
      exact (huniq k x.1 q2 hxo q1).2
    · rintro rfl; exact heo
  · intro j y hy hne
    have hy' : y = w.inst j := by
      rw [List.getElem?_map] at hy
      obtain ⟨j', h1, h2⟩ := Option.map_eq_some_iff.1 hy
      obtain ⟨h3, h4⟩ := List.getElem?_eq_some_iff.1 h1
      rw [List.getElem_range] at h4
      subst h4; exact h2.symm
    subst hy'
    rw [List.map_eq_nil_iff, List.filter_eq_nil_iff]
    intro x hx hxo
    obtain ⟨q1, q2⟩ := seen_committed hn ((cores hn h.reach j).inc fun _ => []) hx
    exact hne (huniq j x.1 q2 (by simpa using hxo) q1).1

/-- **C94**, in part (not yet). Under the same condition, readers see nothing, from no consumer, of a source record at or above the newest offset
record. -/
theorem C94_none_partial (hn : 0 < c.poolSize) (hsrc : ∀ tp, (src tp).Pairwise (· < ·)) {w : World} (h : Calm c src w) {tp o : Nat}
    (hw : w.wm tp ≤ o) : w.effects tp o = [] := by
  obtain ⟨last, O⟩ := once_calm hn hsrc h
  unfold World.effects effectsAt
  rw [List.flatMap_eq_nil_iff]
  intro i hi
  obtain ⟨k, -, rfl⟩ := List.mem_map.1 hi
  rw [List.map_eq_nil_iff, List.filter_eq_nil_iff]
  intro x hx hxo
  obtain ⟨q1, q2⟩ := seen_committed hn ((cores hn h.reach k).inc fun _ => []) hx
  have := O.low tp o ⟨k, x.1, q1, q2, by simpa using hxo⟩
  omega

/-- The offsets of the partition in a pool whose transactions are not committed, in the order in which they were added. -/
def uncommitted (i : Inc) (tp : Nat) : List Nat :=
  (i.pool.added.filter fun x => x.1.part = tp ∧ (x.2, true) ∉ i.pool.ended).filterMap fun x => x.1.off

/-- **C94**, in part (resume). Under the same condition, what a worker's consumer has not committed and what the worker has still to fetch is the source
topic from the newest offset record on: no record is missing, none is there twice, and no other living consumer has one of them. -/
theorem C94_resume_partial (hn : 0 < c.poolSize) (hsrc : ∀ tp, (src tp).Pairwise (· < ·)) {w : World} (h : Calm c src w) {k tp : Nat} {l : List Nat}
    (hk : w.alive k = true) (hl : w.work k tp = some l) :
    uncommitted (w.inst k) tp ++ l = ((src tp).filter fun o => w.wm tp ≤ o) ∧
    ∀ j, j ≠ k → w.alive j = true → w.work j tp = none ∧ ¬ Busy (w.inst j) tp := by
  obtain ⟨last, O⟩ := once_calm hn hsrc h
  have hlast : last tp = some k := by
    by_contra hne
    have := (O.idle k tp hne hk).2
    rw [hl] at this; cases this
  have hpend : ∀ j, uncommitted (w.inst j) tp = pend (w.inst j) tp := by
    intro j
    have C := cores hn h.reach j
    have h4 := (C04_in_order hn C.reach).1
    have key : ∀ m : List (Ev × Nat), (∀ x ∈ m, x ∈ (w.inst j).pool.added) →
        ((m.filter fun x => x.1.part = tp ∧ (x.2, true) ∉ (w.inst j).pool.ended).filterMap fun x => x.1.off) =
        ((m.filter fun x => x.1.part = tp ∧ (w.inst j).pool.ended.length ≤ x.2).filterMap fun x => x.1.off) := by
      intro m
      induction m with
      | nil => intro _; rfl
      | cons x m ih =>
        intro hm
        have ih := ih fun y hy => hm y (List.mem_cons_of_mem _ hy)
        cases ho : x.1.off with
        | none =>
          have : ∀ (b : Bool) (q : List (Ev × Nat)), ((if b then x :: q else q).filterMap fun x => x.1.off) = q.filterMap fun x => x.1.off := by
            intro b q; cases b <;> simp [ho]
          rw [List.filter_cons, List.filter_cons, this, this, ih]
        | some o =>
          have hiff : ((x.2, true) ∉ (w.inst j).pool.ended) ↔ (w.inst j).pool.ended.length ≤ x.2 := by
            constructor
            · intro hne
              by_contra hlt
              exact hne (Marks.committed_of_ended hn C.reach (hm x (List.mem_cons_self ..)) (by rw [h4, List.mem_range]; omega) ho)
            · intro hle hmem
              have : x.2 ∈ (w.inst j).pool.ended.map Prod.fst := List.mem_map.2 ⟨_, hmem, rfl⟩
              rw [h4, List.mem_range] at this
              omega
          simp only [List.filter_cons, hiff]
          split
          · simp only [List.filterMap_cons, ho] at ih ⊢
            rw [ih]
          · exact ih
    exact key _ fun x hx => hx
  refine ⟨?_, ?_⟩
  · obtain ⟨r, h1, h2⟩ := O.act k tp hlast hk
    have := h2 l hl
    subst this
    rw [hpend]; exact h1
  · intro j hj ha
    obtain ⟨h1, h2⟩ := O.idle j tp (by rw [hlast]; intro h; cases h; exact hj rfl) ha
    refine ⟨h2, ?_⟩
    rintro ⟨e, g, b1, b2, b3, b4⟩
    cases ho : e.off with
    | none => exact b3 ho
    | some o =>
      have : o ∈ uncommitted (w.inst j) tp :=
        List.mem_filterMap.2 ⟨(e, g), List.mem_filter.2 ⟨b1, by simpa using ⟨b2, b4⟩⟩, ho⟩
      rw [hpend, h1] at this
      simp at this

/-- **C94**, in part (final). Under the same condition no step moves the newest offset record back or changes what readers see of source records below
it. -/
theorem C94_final_partial (hn : 0 < c.poolSize) (hsrc : ∀ tp, (src tp).Pairwise (· < ·)) {w w' : World} (h : Calm c src w) {a : Act}
    (ha : Orderly w a) (hs : step c src w a = some w') (tp : Nat) :
    w.wm tp ≤ w'.wm tp ∧ ∀ o ∈ src tp, o < w.wm tp → w'.effects tp o = w.effects tp o := by
  have h' : Calm c src w' := .step a h ha hs
  obtain ⟨last', O'⟩ := once_calm hn hsrc h'
  have hwm : w.wm tp ≤ w'.wm tp := by
    -- the newest offset record belongs to a committed record
    have hrec : w.wm tp = 0 ∨ ∃ o, w.wm tp = o + 1 ∧ w.Handled tp o := wm_handled hn hsrc h tp
    rcases hrec with h0 | ⟨o, h1, h2⟩
    · omega
    · have := O'.low tp o (handled_step hn (cores hn h.reach) hs h2)
      omega
  refine ⟨hwm, ?_⟩
  intro o ho hlt
  obtain ⟨k, e, hk, hp, heo, he, heff, -⟩ := C94_once_partial hn hsrc h ho hlt
  obtain ⟨k2, e2, hk2, -, -, -, heff2, huniq⟩ := C94_once_partial hn hsrc h' ho (Nat.lt_of_lt_of_le hlt hwm)
  obtain ⟨h1, h2⟩ := C93_kept hn h.reach hs k e he
  obtain ⟨rfl, rfl⟩ := huniq k e hp heo h1
  rw [heff, heff2, h2]
where
  wm_handled (hn : 0 < c.poolSize) (hsrc : ∀ tp, (src tp).Pairwise (· < ·)) {w : World} (h : Calm c src w) (tp : Nat) :
      w.wm tp = 0 ∨ ∃ o, w.wm tp = o + 1 ∧ w.Handled tp o := by
    induction h with
    | init => left; rfl
    | @step w w' a hr ho hs ih =>
      have hc := cores hn hr.reach
      have hmono : ∀ tp o, w.Handled tp o → w'.Handled tp o := fun tp o => handled_step hn hc hs
      have same : w'.wm tp = w.wm tp → w'.wm tp = 0 ∨ ∃ o, w'.wm tp = o + 1 ∧ w'.Handled tp o := by
        intro heq
        rw [heq]
        rcases ih with h | ⟨o, h1, h2⟩
        · exact .inl h
        · exact .inr ⟨o, h1, hmono tp o h2⟩
      rcases step_cases hn hc hs with ⟨-, rfl⟩ | ⟨k, tp', x, -, -, -, -, rfl⟩ | ⟨k, tp', -, -, rfl⟩ | ⟨k, tp', id, o, rest, i', -, -, -, A, rfl⟩ |
        ⟨k, tp', id, i', -, -, A, rfl⟩ | ⟨k, i', -, -, G, rfl⟩ | ⟨k, -, -, rfl⟩
      · exact same rfl
      · exact same rfl
      · exact same rfl
      · exact same (wm_adds A tp)
      · exact same (wm_adds A tp)
      · rcases G.kind with ⟨-, -, h3⟩ | ⟨h1, h2, h3⟩
        · exact same (by rw [wm_move, h3]; rfl)
        · cases hnw : newest (evOf (w.inst k).pool.added (w.inst k).pool.ended.length) tp with
          | none => exact same (by rw [wm_move, h3, hnw]; rfl)
          | some y =>
            obtain ⟨e, he, hp, hoff⟩ := Marks.newest_mem hnw
            refine .inr ⟨y, by rw [wm_move, h3, hnw]; rfl, k, e, ?_, hp, hoff⟩
            rw [move_inst, if_pos rfl, committed_lt hn G.core.reach hoff]
            exact ⟨_, by rw [h2]; exact Nat.lt_succ_self _, by rw [h1]; exact mem_evOf.1 he⟩
      · exact same rfl

/-- **C94 is violated.** Consumer 0 adds 10 and loses the partition. No consumer has a worker for it when consumer 1 gets it, and consumer 1 starts at the
newest offset record. Then both commit: readers see the effects of 10 from both. -/
theorem C94_violated : ∃ (w0 w1 w : World), run demoCfg demoSrc (World.init demoCfg)
      ([.start, .start, .assign 0 5 0] ++ handle 0 0 10 100 ++ [.revoke 0 5]) = some w0 ∧
    (∀ j, w0.work j 5 = none) ∧ step demoCfg demoSrc w0 (.assign 1 5 (w0.wm 5)) = some w1 ∧
    run demoCfg demoSrc w1 (handle 1 0 10 200 ++ commit 0 0 10 ++ commit 1 0 10) = some w ∧ w.effects 5 10 = [100, 200] := by
  refine ⟨_, _, _, rfl, ?_, rfl, rfl, by decide +kernel⟩
  intro j
  by_cases h : j = 0
  · subst h; decide +kernel
  · simp [World.setWork, World.move, World.init, upd, h]

/-- **C94 is violated** in the other direction too: if the consumer that lost the partition commits last, the newest offset record goes back, and the
next worker that starts there repeats what the other has committed. -/
theorem C94_violated_back : ∃ (w0 w1 : World), run demoCfg demoSrc (World.init demoCfg)
      ([.start, .start, .start, .assign 0 5 0] ++ handle 0 0 10 100 ++ [.revoke 0 5, .assign 1 5 0] ++ handle 1 0 10 200 ++ commit 1 0 10 ++
        handle 1 1 12 201 ++ commit 1 1 12 ++ [.revoke 1 5]) = some w0 ∧
    run demoCfg demoSrc w0 (commit 0 0 10 ++ [.assign 2 5 11] ++ handle 2 0 12 300 ++ commit 2 0 12) = some w1 ∧
    w0.wm 5 = 13 ∧ w1.log 5 = [11, 13, 11, 13] ∧ w1.effects 5 12 = [201, 300] := by
  refine ⟨_, _, rfl, rfl, by decide +kernel, by decide +kernel, by decide +kernel⟩

end Verif.Fleet
