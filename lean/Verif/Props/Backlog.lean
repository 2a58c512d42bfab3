import Verif.Backlog.Ends
/-
Property C88: partition workers and an `AsyncJobScheduler` never wait for each other (streams/partition_worker.go, streams/async_scheduler.go).
-/
namespace Verif.Backlog
open Verif.Scheduler

variable {K : Type} [DecidableEq K]

/-- Whatever happens later, short of closing the scheduler, the worker takes no further event and no further job. -/
def Spec.deadWorker (c : Cfg) (p : Nat) (s : Sys K) : Prop :=
  ∀ as s', run c s as = some s' → (∀ a ∈ as, a ≠ .inner .close) → step c s' (.handle p) = none ∧ step c s' (.job p) = none

/-- C88, partial: while there are no more slots than places in `asyncJobs`, a goroutine of the scheduler that finished a job always gets rid of it.
The missing part is a larger `MaxBatchSize*PoolSize`, as by default, where the claim is false (`C88_violated`). -/
theorem C88_post_never_blocks_partial {c : Cfg} {s : Sys K} (h : Reach c s) (hP : c.maxPending ≤ c.asyncSize) {t w : Nat} {x : Job K} (ht : s.sch.threads t = .wAdv w x) :
    ∃ s', step c s (.inner (.complete t)) = some s' ∧ x ∈ s'.jobs x.caller := by
  have := room (inv_reach h) ht
  have hr : (s.jobs x.caller).length < c.asyncSize := by omega
  refine ⟨_, by simp only [step, ht, if_pos hr, Scheduler.step, Option.map_some]; rfl, by simp⟩

/-- C88, partial: with at most one slot more than places in `asyncJobs`, workers and scheduler are never all at rest before the work is done: in a state in which none of them can go on by itself
every worker waits in its `select`, has handled all its events, taken all its jobs and given back all slots.  The scheduler must be running, its queues must have kept their heads (C19) and its limit
must not have been lowered (C20).  The missing part is a larger `MaxBatchSize*PoolSize`. -/
theorem C88_all_completed_partial {c : Cfg} {as : List (Act K)} {s : Sys K} (hc : 1 ≤ c.sched.concurrency) (hP : c.maxPending ≤ c.asyncSize + 1)
    (h : run c (Sys.init c) as = some s) (hr : Spec.onlyRaised c (Sys.init c) as) (ho : s.sch.closed = false) (hh : Scheduler.Spec.headsKept s.sch)
    (hend : ∀ a, Spec.own a → step c s a = none) {p : Nat} (hp : c.sched.concurrency ≤ p) :
    s.sch.threads p = .idle ∧ s.evq p = [] ∧ s.jobs p = [] ∧ s.slots p = 0 :=
  quiet hc hP h hr ho hh hend p hp

/-- C88, partial: however long the channels are and however the goroutines are scheduled, workers and scheduler come to rest after finitely many steps, as long as no queue loses its head
(C19) and the limit was not lowered (C20).  Missing: the runs with a lost head, where the scheduler goes round for ever (`C19_violated_spins`). -/
theorem C88_every_schedule_ends_partial {c : Cfg} {as : List (Act K)} {s : Sys K} (h : run c (Sys.init c) as = some s) (hr : Spec.onlyRaised c (Sys.init c) as)
    (ho : s.sch.closed = false) : ∃ n, ∀ bs s', run c s bs = some s' → (∀ a ∈ bs, Spec.own a) → Spec.keptAlong c s bs → bs.length ≤ n :=
  bounded h hr ho

/-- C88: the slots fit into `asyncJobs` exactly if there are at most 400: larger batches make the channel longer, but never as long as they would have to. -/
theorem C88_few_slots (c : Cfg) (hp : 1 ≤ c.poolSize) : c.maxPending ≤ c.asyncSize ↔ c.maxBatch * c.poolSize ≤ 400 := by
  show c.maxBatch * c.poolSize ≤ max (c.maxBatch / 10) 100 * 4 ↔ _
  have := Nat.le_mul_of_pos_right c.maxBatch hp
  omega

/-- C88 is violated, whatever the scheduler's limits are, as soon as there are two slots more than places in `asyncJobs`: a worker may end up in `Schedule`, waiting for
room in the queue of a key, while the goroutine that could make room waits for the worker to take a job.  The finished jobs stay in `asyncJobs`. -/
theorem C88_violated (c : Cfg) (k : K) (hc : 1 ≤ c.sched.concurrency) (hP : c.asyncSize + 2 ≤ c.maxPending) :
    ∃ (s : Sys K) (p : Nat), Reach c s ∧ s.sch.closed = false ∧ c.asyncSize ≤ (s.jobs p).length ∧ Spec.deadWorker c p s := by
  obtain ⟨as, s, m, w, x, y, h, _, S, _⟩ := reach_stuck k hc hP
  refine ⟨s, c.sched.concurrency, ⟨as, h⟩, S.closed, S.jobs, ?_⟩
  intro bs s' h' hb
  have I := inv_run (inv_init c) h
  exact stuck_dead (inv_run I h') (stuck_run I S h' hb)

/-- Whenever the workers and a running scheduler come to rest, without a lost head (C19) and without a lowered limit (C20), every worker has completed all its events. -/
def Spec.restIsDone (K : Type) [DecidableEq K] (c : Cfg) : Prop :=
  ∀ (as : List (Act K)) (s : Sys K), run c (Sys.init c) as = some s → Spec.onlyRaised c (Sys.init c) as → s.sch.closed = false → Scheduler.Spec.headsKept s.sch →
    (∀ a, Spec.own a → step c s a = none) → ∀ p, c.sched.concurrency ≤ p → s.sch.threads p = .idle ∧ s.evq p = [] ∧ s.jobs p = [] ∧ s.slots p = 0

/-- C88: exactly which sizes are safe: with one slot more than places in `asyncJobs` all events are completed when nothing goes on by itself, with two this is not so. -/
theorem C88_exact_sizes (c : Cfg) (k : K) (hc : 1 ≤ c.sched.concurrency) : Spec.restIsDone K c ↔ c.maxPending ≤ c.asyncSize + 1 := by
  constructor
  · intro H
    by_contra hP
    obtain ⟨as, s, m, w, x, y, h, hp, S, Q⟩ := reach_stuck k hc (by omega : c.asyncSize + 2 ≤ c.maxPending)
    obtain ⟨hh, hend⟩ := still_end hc S Q
    have := (H as s h (plain_raised c as hp _) S.closed hh hend _ (Nat.le_refl _)).1
    rw [S.me] at this
    simp at this
  · exact fun hP as s h hr ho hh hend p hp => quiet hc hP h hr ho hh hend p hp

/-- C88: in the numbers of the configuration: at most 401 slots are safe, more are not. -/
theorem C88_exact_numbers (c : Cfg) (k : K) (hc : 1 ≤ c.sched.concurrency) (hp : 1 ≤ c.poolSize) : Spec.restIsDone K c ↔ c.maxBatch * c.poolSize ≤ 401 := by
  rw [C88_exact_sizes c k hc]
  show c.maxBatch * c.poolSize ≤ max (c.maxBatch / 10) 100 * 4 + 1 ↔ _
  have := Nat.le_mul_of_pos_right c.maxBatch hp
  omega

/-- C88 is violated with the default `EosConfig` (`MaxBatchSize` 10000, `PoolSize` 3: 30000 slots, 4000 jobs) and every `SchedulerConfig` with 10000 keys, so for every predefined
one (`streams/async_scheduler.go:132-160`: depth 1000 or 100, 10000 keys, a multiple of the number of CPUs as concurrency). -/
theorem C88_violated_default (concurrency depth : Nat) (hc : 1 ≤ concurrency) :
    ∃ (s : Sys Nat) (p : Nat), Reach ⟨⟨concurrency, depth, 10000⟩, 10000, 3⟩ s ∧ s.sch.closed = false ∧ 4000 ≤ (s.jobs p).length ∧
      Spec.deadWorker ⟨⟨concurrency, depth, 10000⟩, 10000, 3⟩ p s := by
  generalize hm : (10000 : Nat) = m
  generalize hj : (4000 : Nat) = j
  have h1 : (⟨⟨concurrency, depth, m⟩, m, 3⟩ : Cfg).asyncSize = j := by unfold Cfg.asyncSize Cfg.inputSize; dsimp only; omega
  have h2 : (⟨⟨concurrency, depth, m⟩, m, 3⟩ : Cfg).maxPending = 3 * m := by unfold Cfg.maxPending; dsimp only; omega
  have := C88_violated (⟨⟨concurrency, depth, m⟩, m, 3⟩ : Cfg) (0 : Nat) hc (by rw [h1, h2]; omega)
  rw [h1] at this
  exact this

/-- A small configuration that is safe: 200 slots, 400 places (concurrency 1, depth 2). -/
def exCfg : Cfg := ⟨⟨1, 2, 10⟩, 100, 2⟩

/-- An event comes in, is scheduled and processed, and its completion is about to be submitted. -/
def exRun : List (Act Nat) :=
  [.arrive 1 7, .handle 1, .inner (.lock 1 none), .inner (.send 1), .inner (.eval 0), .inner (.recv 0), .inner (.peek 0), .inner (.finish 0)]

/-- The rest of its way: back to the worker, the scheduler's goroutine waits for the next one. -/
def exRest : List (Act Nat) :=
  [.inner (.complete 0), .inner (.release 0), .inner (.signal 0), .inner (.eval 0), .job 1]

/-- The hypotheses of `C88_post_never_blocks_partial` are met. -/
example : ∃ s, run exCfg (Sys.init exCfg) exRun = some s ∧ exCfg.maxPending ≤ exCfg.asyncSize ∧ s.sch.threads 0 = .wAdv 0 ⟨7, 1, 0⟩ :=
  ⟨_, rfl, by decide +kernel, by decide +kernel⟩

theorem ex_raised (c : Cfg) (as : List (Act K)) (h : ∀ t n, .inner (.setMax t n) ∉ as) (s : Sys K) : Spec.onlyRaised c s as := by
  induction as generalizing s with
  | nil => trivial
  | cons a as ih =>
    refine ⟨fun t n e => absurd (by rw [e]; simp) (h t n), fun s' _ => ih (fun t n hm => h t n (by simp [hm])) s'⟩

/-- The hypotheses of `C88_all_completed_partial` are met after the event has gone all the way: nothing moves any more by itself. -/
example : ∃ s, run exCfg (Sys.init exCfg) (exRun ++ exRest) = some s ∧ Spec.onlyRaised exCfg (Sys.init exCfg) (exRun ++ exRest) ∧ s.sch.closed = false ∧
    Scheduler.Spec.headsKept s.sch ∧ (∀ a, Spec.own a → step exCfg s a = none) ∧ s.done = [⟨7, 1, 0⟩] := by
  have hr : ∃ s, run exCfg (Sys.init exCfg) (exRun ++ exRest) = some s ∧ s.sch.closed = false ∧ s.sch.map = [] ∧ s.sch.threads 0 = .wWait 0 ∧ s.sch.threads 1 = .idle ∧
      s.sch.chans 0 = [] ∧ s.sch.cur = 0 ∧ s.done = [⟨7, 1, 0⟩] ∧ s.evq 1 = [] ∧ s.jobs 1 = [] ∧
      (∀ u, s.sch.threads (u + 2) = .idle ∧ s.evq (u + 2) = [] ∧ s.jobs (u + 2) = []) ∧ s.evq 0 = [] ∧ s.jobs 0 = [] := by
    refine ⟨_, rfl, by decide +kernel, by decide +kernel, by decide +kernel, by decide +kernel, by decide +kernel, by decide +kernel, by decide +kernel, by decide +kernel,
      by decide +kernel, ?_, by decide +kernel, by decide +kernel⟩
    intro u
    exact ⟨rfl, rfl, rfl⟩
  obtain ⟨s, h, ho, hm, h0, h1, hch, hcur, hd, he, hj, hx', he0, hj0⟩ := hr
  have hx : ∀ t, t ≠ 0 → t ≠ 1 → s.sch.threads t = .idle ∧ s.evq t = [] ∧ s.jobs t = [] := by
    intro t h0 h1
    obtain ⟨u, rfl⟩ : ∃ u, t = u + 2 := ⟨t - 2, by omega⟩
    exact hx' u
  have hth : ∀ t, s.sch.threads t = .idle ∨ (t = 0 ∧ s.sch.threads t = .wWait 0) := by
    intro t
    by_cases e0 : t = 0
    · subst e0; exact .inr ⟨rfl, h0⟩
    · by_cases e1 : t = 1
      · subst e1; exact .inl h1
      · exact .inl (hx t e0 e1).1
  have hev : ∀ t, s.evq t = [] ∧ s.jobs t = [] := by
    intro t
    by_cases e0 : t = 0
    · subst e0; exact ⟨he0, hj0⟩
    · by_cases e1 : t = 1
      · subst e1; exact ⟨he, hj⟩
      · exact (hx t e0 e1).2
  refine ⟨s, h, ex_raised _ _ (by simp [exRun, exRest]) _, ho, ?_, ?_, hd⟩
  · intro k w hk; rw [hm] at hk; simp at hk
  · intro a ha
    cases a with
    | arrive p k => exact ha.elim
    | handle p => simp [step, (hev p).1]
    | job p => simp [step, (hev p).2]
    | inner l =>
      cases l with
      | call x => exact ha.elim
      | setMax t n => exact ha.elim
      | setDepth n => exact ha.elim
      | close => exact ha.elim
      | _ t => rcases hth t with e | ⟨e1, e⟩ <;> simp [step, Scheduler.step, e, State.recv, hch, hcur, ho]

/-- Five steps of their own, along which the heads are kept, as in `C88_every_schedule_ends_partial`. -/
example : ∃ s s', run exCfg (Sys.init exCfg) exRun = some s ∧ s.sch.closed = false ∧ run exCfg s exRest = some s' ∧ exRest.length = 5 ∧
    (∀ i : Fin 6, ∃ u, run exCfg s (exRest.take i) = some u ∧ ∀ m ∈ u.sch.map, (u.sch.wk m.2).queue.buf = []) :=
  ⟨_, _, rfl, by decide +kernel, rfl, rfl, fun i => by
    match i with
    | 0 => exact ⟨_, rfl, by decide +kernel⟩
    | 1 => exact ⟨_, rfl, by decide +kernel⟩
    | 2 => exact ⟨_, rfl, by decide +kernel⟩
    | 3 => exact ⟨_, rfl, by decide +kernel⟩
    | 4 => exact ⟨_, rfl, by decide +kernel⟩
    | 5 => exact ⟨_, rfl, by decide +kernel⟩⟩

/-- The hypotheses of `C88_violated` are met. -/
example : (exCfg.asyncSize + 2 ≤ (Cfg.mk exCfg.sched 1000 3).maxPending) ∧ 1 ≤ exCfg.sched.concurrency := by decide

end Verif.Backlog
