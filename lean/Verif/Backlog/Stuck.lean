import Verif.Backlog.Proofs
import Verif.Props.SchedulerProgress
/-
How a worker and the scheduler come to wait for each other.
-/
set_option linter.unusedSimpArgs false
set_option linter.unusedSectionVars false
set_option linter.unusedVariables false
namespace Verif.Backlog
open Verif.Scheduler

variable {K : Type} [DecidableEq K]

theorem run_append {c : Cfg} {s s' s'' : Sys K} {a b : List (Act K)} (h1 : run c s a = some s') (h2 : run c s' b = some s'') : run c s (a ++ b) = some s'' := by
  induction a generalizing s with
  | nil => simp only [run, Option.some.injEq] at h1; subst h1; exact h2
  | cons x a ih =>
    simp only [run, Option.bind_eq_some_iff] at h1
    obtain ⟨s1, e1, e2⟩ := h1
    simp only [List.cons_append, run, e1, Option.bind_some]
    exact ih e2

/-- Neither the end of the scheduler nor a change of its limits. -/
def plain : Act K → Bool
  | .inner .close | .inner (.setMax _ _) | .inner (.setDepth _) => false
  | _ => true

/-- The goroutines that take no part: those of the scheduler except the first wait for a queue, workers other than `p` are idle, and those from `q` on have
not had an event yet. -/
structure Aside (c : Cfg) (p m : Nat) (s : Sys K) : Prop where
  inside : ∀ t, 0 < t → t < c.sched.concurrency → s.sch.threads t = .wWait 0
  idle : ∀ q, p < q → s.sch.threads q = .idle
  none : ∀ q, q ≠ p → s.evq q = [] ∧ s.jobs q = []
  slots : ∀ q, m < q → s.slots q = 0

/-- All that has been scheduled is in `asyncJobs`; worker and scheduler are idle. -/
structure Rest (c : Cfg) (p n : Nat) (s : Sys K) : Prop where
  closed : s.sch.closed = false
  map : s.sch.map = []
  chan : s.sch.chans 0 = []
  cap : s.sch.caps 0 = c.sched.concurrentKeys + 1
  cur : s.sch.cur = 0
  rw : s.sch.rw = false
  depth : s.sch.depth = c.sched.depth
  keys : s.sch.maxKeys = c.sched.concurrentKeys
  zero : s.sch.threads 0 = .wTop
  me : s.sch.threads p = .idle
  jobs : (s.jobs p).length = n
  slots : s.slots p = n
  evq : s.evq p = []
  aside : Aside c p p s

/-- The goroutines `1` to `i` of the scheduler start to wait for a queue. -/
theorem reach_wait {c : Cfg} (hc : 1 ≤ c.sched.concurrency) : ∀ i, i < c.sched.concurrency →
    ∃ (as : List (Act K)) (s : Sys K), run c (Sys.init c) as = some s ∧ (∀ a ∈ as, plain a = true) ∧
      s = { Sys.init c with sch := { Scheduler.init c.sched with threads := fun t => if t < c.sched.concurrency then if 0 < t ∧ t ≤ i then .wWait 0 else .wTop else .idle } } := by
  intro i
  induction i with
  | zero =>
    intro _
    refine ⟨[], _, rfl, by simp, ?_⟩
    simp only [Sys.init, Scheduler.init]
    congr 2
    funext t
    have : ¬ (0 < t ∧ t ≤ 0) := by omega
    rw [if_neg this]
  | succ i ih =>
    intro hi
    obtain ⟨as, s, h, hp, e⟩ := ih (by omega)
    refine ⟨as ++ [.inner (.eval (i + 1))], _, run_append h (s'' := { s with sch := s.sch.goto (i + 1) (.wWait s.sch.cur) }) ?_, ?_, ?_⟩
    · have ht : s.sch.threads (i + 1) = .wTop := by rw [e]; simp [hi]
      simp [run, step, Scheduler.step, ht]
    · intro a ha
      simp only [List.mem_append, List.mem_singleton] at ha
      rcases ha with ha | rfl
      · exact hp a ha
      · rfl
    · rw [e]
      simp only [State.goto, Scheduler.init, Sys.init]
      congr 2
      funext t
      simp only [upd]
      by_cases h1 : t = i + 1
      · subst h1; simp [hi]
      · rw [if_neg h1]
        by_cases h2 : t < c.sched.concurrency
        · rw [if_pos h2, if_pos h2]
          have : (0 < t ∧ t ≤ i) ↔ (0 < t ∧ t ≤ i + 1) := by omega
          simp only [this]
        · rw [if_neg h2, if_neg h2]

theorem rest_init {c : Cfg} (hc : 1 ≤ c.sched.concurrency) : ∃ (as : List (Act K)) (s : Sys K), run c (Sys.init c) as = some s ∧ (∀ a ∈ as, plain a = true) ∧
    Rest c c.sched.concurrency 0 s := by
  obtain ⟨as, s, h, hp, e⟩ := reach_wait (K := K) hc (c.sched.concurrency - 1) (by omega)
  refine ⟨as, s, h, hp, ?_⟩
  subst e
  constructor
  case aside =>
    constructor
    · intro t h1 h2
      have : 0 < t ∧ t ≤ c.sched.concurrency - 1 := by omega
      simp [h2, this]
    · intro q hq
      have : ¬ q < c.sched.concurrency := by omega
      simp [this]
    · intro q _; simp [Sys.init]
    · intro q _; simp [Sys.init]
  all_goals simp [Sys.init, Scheduler.init]
  omega

/-- One event up to the point where its job is about to be put into `asyncJobs`. -/
def toPost (p : Nat) (k : K) : List (Act K) := [.arrive p k, .handle p, .inner (.lock p none), .inner (.send p), .inner (.eval 0), .inner (.recv 0), .inner (.peek 0),
  .inner (.finish 0)]

/-- A job is about to be put into `asyncJobs`, and the queue of its key is empty. -/
structure Post (c : Cfg) (p n : Nat) (k : K) (w : Nat) (x : Job K) (s : Sys K) : Prop where
  closed : s.sch.closed = false
  map : s.sch.map = [(k, w)]
  key : (s.sch.wk w).key = some k
  chan : s.sch.chans 0 = []
  cap : s.sch.caps 0 = c.sched.concurrentKeys + 1
  cur : s.sch.cur = 0
  rw : s.sch.rw = false
  depth : s.sch.depth = c.sched.depth
  keys : s.sch.maxKeys = c.sched.concurrentKeys
  zero : s.sch.threads 0 = .wAdv w x
  mine : x.caller = p
  me : s.sch.threads p = .idle
  jobs : (s.jobs p).length = n
  slots : s.slots p = n + 1
  evq : s.evq p = []
  size : (s.sch.wk w).queue.size = 0
  head : (s.sch.wk w).queue.head = none
  buf : (s.sch.wk w).queue.buf = []
  qcap : (s.sch.wk w).queue.cap = (if c.sched.depth < 2 then 2 else c.sched.depth) - 1
  aside : Aside c p p s

theorem reach_post {c : Cfg} {p n : Nat} (k : K) {s : Sys K} (hc : 1 ≤ c.sched.concurrency) (hp : c.sched.concurrency ≤ p) (R : Rest c p n s) (hn : n < c.maxPending) :
    ∃ s' w x, run c s (toPost p k) = some s' ∧ Post c p n k w x s' := by
  have hp0 : p ≠ 0 := by omega
  have h0p : (0 : Nat) ≠ p := by omega
  have hin : 0 < c.inputSize := by unfold Cfg.inputSize; omega
  have hk : 0 < c.sched.concurrentKeys := by unfold Config.concurrentKeys; split <;> omega
  have hk' : ¬ c.sched.concurrentKeys = 0 := by omega
  obtain ⟨r1, r2, r3, r4, r5, r6, r7, r8, r9, r10, r11, r12, r13, a1, a2, a3, a4⟩ := R
  suffices h : ∃ s', run c s (toPost p k) = some s' ∧ Post c p n k s.sch.nw ⟨k, p, s.next⟩ s' by
    obtain ⟨s', h1, h2⟩ := h
    exact ⟨s', _, _, h1, h2⟩
  simp [toPost, run, step, r12, r13, hn, hp, hin, upd, Scheduler.step, r10, r1, State.goto, State.lock, State.lookup, r2, r8, hk', 
      State.poolGet, State.bind, State.add, State.setQ, r7, newQueue, Queue.tryEnqueue, Queue.tryEnqueue1, Queue.backfill, State.send, r6, r5, r3, r4, State.recv, r9, State.peekStep, Queue.peek,
      Queue.dequeue, Queue.take, hp0, h0p]
  constructor
  case aside =>
    constructor
    · intro t h1 h2
      have e1 : t ≠ 0 := by omega
      have e2 : t ≠ p := by omega
      simp [upd, e1, e2, a1 t h1 h2]
    · intro q hq
      have e1 : q ≠ 0 := by omega
      have e2 : q ≠ p := by omega
      simp [upd, e1, e2, a2 q hq]
    · intro q hq; simp [upd, hq, a3 q hq]
    · intro q hq
      have e2 : q ≠ p := by omega
      simp [upd, e2, a4 q hq]
  all_goals simp [r4, r11, r12, upd, hp0, h0p]

theorem post_rest {c : Cfg} {p n w : Nat} {k : K} {x : Job K} {s : Sys K} (hp : 1 ≤ p) (hp' : c.sched.concurrency ≤ p) (P : Post c p n k w x s) (hn : n < c.asyncSize) :
    ∃ s', run c s [.inner (.complete 0), .inner (.release 0), .inner (.signal 0)] = some s' ∧ Rest c p (n + 1) s' := by
  have hp0 : p ≠ 0 := by omega
  have h0p : (0 : Nat) ≠ p := by omega
  obtain ⟨q1, q2, q3, q4, q5, q6, q7, q8, q9, q10, q11, q12, q13, q14, q15, q16, q17, q18, q19, a1, a2, a3, a4⟩ := P
  simp [run, step, q10, q11, q13, hn, Scheduler.step, State.goto, upd, State.release, q16, Queue.done, q3, q2, q1]
  constructor
  case aside =>
    constructor
    · intro t h1 h2
      have e1 : t ≠ 0 := by omega
      simp [upd, e1, a1 t h1 h2]
    · intro q hq
      have e1 : q ≠ 0 := by omega
      simp [upd, e1, a2 q hq]
    · intro q hq; simp [upd, hq, a3 q hq]
    · intro q hq; simp [a4 q hq]
  all_goals simp [q1, q2, q3, q4, q5, q6, q7, q8, q9, q12, q13, q14, q15, hp0, h0p, upd]

/-- Any number of jobs can gather in `asyncJobs`, up to its capacity. -/
theorem reach_rest {c : Cfg} (k : K) (hc : 1 ≤ c.sched.concurrency) : ∀ n, n ≤ c.asyncSize → n ≤ c.maxPending →
    ∃ (as : List (Act K)) (s : Sys K), run c (Sys.init c) as = some s ∧ (∀ a ∈ as, plain a = true) ∧ Rest c c.sched.concurrency n s := by
  intro n
  induction n with
  | zero => intro _ _; exact rest_init hc
  | succ n ih =>
    intro h1 h2
    obtain ⟨as, s, e, hn, R⟩ := ih (by omega) (by omega)
    obtain ⟨s1, w, x, e1, P⟩ := reach_post k hc (Nat.le_refl _) R (by omega)
    obtain ⟨s2, e2, R2⟩ := post_rest hc (Nat.le_refl _) P (by omega)
    refine ⟨as ++ (toPost c.sched.concurrency k ++ _), s2, run_append e (run_append e1 e2), ?_, R2⟩
    intro a ha
    simp only [toPost, List.mem_append, List.mem_cons, List.not_mem_nil, or_false] at ha
    rcases ha with ha | ha | ha
    · exact hn a ha
    · rcases ha with rfl | rfl | rfl | rfl | rfl | rfl | rfl | rfl <;> rfl
    · rcases ha with rfl | rfl | rfl <;> rfl

/-- A job is about to be put into `asyncJobs`, and `m + 1` jobs of other workers are in the queue of its key. -/
structure Fill (c : Cfg) (p n m : Nat) (k : K) (w : Nat) (x : Job K) (s : Sys K) : Prop where
  closed : s.sch.closed = false
  map : s.sch.map = [(k, w)]
  chan : s.sch.chans 0 = []
  cur : s.sch.cur = 0
  zero : s.sch.threads 0 = .wAdv w x
  mine : x.caller = p
  me : s.sch.threads p = .idle
  jobs : (s.jobs p).length = n
  slots : s.slots p = n + 1
  evq : s.evq p = []
  head : (s.sch.wk w).queue.head ≠ none
  buf : (s.sch.wk w).queue.buf.length = m
  qcap : (s.sch.wk w).queue.cap = (if c.sched.depth < 2 then 2 else c.sched.depth) - 1
  aside : Aside c p (p + m + 1) s

theorem fill_start {c : Cfg} {p n w : Nat} {k : K} {x : Job K} {s : Sys K} (hp : 1 ≤ p) (hp' : c.sched.concurrency ≤ p) (P : Post c p n k w x s) (hn : 0 < c.maxPending) :
    ∃ s', run c s [.arrive (p + 1) k, .handle (p + 1), .inner (.lock (p + 1) none)] = some s' ∧ Fill c p n 0 k w x s' := by
  have hp0 : p ≠ 0 := by omega
  have h0p : (0 : Nat) ≠ p := by omega
  have hin : 0 < c.inputSize := by unfold Cfg.inputSize; omega
  have hp'' : c.sched.concurrency ≤ p + 1 := by omega
  obtain ⟨q1, q2, q3, q4, q5, q6, q7, q8, q9, q10, q11, q12, q13, q14, q15, q16, q17, q18, q19, a1, a2, a3, a4⟩ := P
  have b1 := a2 (p + 1) (by omega)
  obtain ⟨b2, b3⟩ := a3 (p + 1) (by omega)
  have b4 := a4 (p + 1) (by omega)
  simp [run, step, hp'', b4, hn, b2, hin, upd, Scheduler.step, b1, q1, State.goto, State.lock, State.lookup, q2, State.add, State.setQ, Queue.tryEnqueue, Queue.tryEnqueue1, q17,
    Queue.backfill, q18]
  constructor
  case aside =>
    constructor
    · intro t h1 h2
      have e1 : t ≠ p + 1 := by omega
      simp [upd, e1, a1 t h1 h2]
    · intro q hq
      by_cases e1 : q = p + 1
      · simp [upd, e1]
      · simp [upd, e1, a2 q hq]
    · intro q hq
      by_cases e1 : q = p + 1
      · subst e1; simp [upd, b3]
      · simp [upd, e1, a3 q hq]
    · intro q hq
      have e1 : q ≠ p + 1 := by omega
      simp [upd, e1, a4 q (by omega)]
  all_goals simp [q1, q2, q4, q6, q10, q11, q12, q13, q14, q15, q17, q18, q19, hp0, h0p, upd]

theorem fill_step {c : Cfg} {p n m w : Nat} {k : K} {x : Job K} {s : Sys K} (hp : 1 ≤ p) (hp' : c.sched.concurrency ≤ p) (P : Fill c p n m k w x s) (hn : 0 < c.maxPending)
    (hm : m < (if c.sched.depth < 2 then 2 else c.sched.depth) - 1) :
    ∃ s', run c s [.arrive (p + m + 2) k, .handle (p + m + 2), .inner (.lock (p + m + 2) none)] = some s' ∧ Fill c p n (m + 1) k w x s' := by
  have hin : 0 < c.inputSize := by unfold Cfg.inputSize; omega
  obtain ⟨q1, q2, q4, q6, q10, q11, q12, q13, q14, q15, q17, q18, q19, a1, a2, a3, a4⟩ := P
  obtain ⟨r, hr⟩ : ∃ r, r = p + m + 2 := ⟨_, rfl⟩
  rw [← hr]
  have hr0 : r ≠ 0 := by omega
  have h0r : 0 ≠ r := by omega
  have hpr : p ≠ r := by omega
  have hr' : c.sched.concurrency ≤ r := by omega
  obtain ⟨y, hy⟩ := Option.ne_none_iff_exists'.1 q17
  have b1 := a2 r (by omega)
  obtain ⟨b2, b3⟩ := a3 r (by omega)
  have b4 := a4 r (by omega)
  simp [run, step, hr', b4, hn, b2, hin, upd, Scheduler.step, b1, q1, State.goto, State.lock, State.lookup, q2, State.add, State.setQ, Queue.tryEnqueue, Queue.tryEnqueue1, hy,
    Queue.trySend, q18, q19, hm]
  constructor
  case aside =>
    constructor
    · intro t h1 h2
      have e1 : t ≠ r := by omega
      simp [upd, e1, a1 t h1 h2]
    · intro q hq
      by_cases e1 : q = r
      · simp [upd, e1]
      · simp [upd, e1, a2 q hq]
    · intro q hq
      by_cases e1 : q = r
      · subst e1; simp [upd, b3]
      · simp [upd, e1, a3 q hq]
    · intro q hq
      have e1 : q ≠ r := by omega
      simp [upd, e1, a4 q (by omega)]
  all_goals simp [q1, q2, q4, q6, q10, q11, q12, q13, q14, q15, hy, q18, q19, hr0, h0r, hpr, upd]

/-- A worker waits in `Schedule` for room in the queue of a key, whose goroutine waits for room in the worker's `asyncJobs`. -/
structure Stuck (c : Cfg) (p t w : Nat) (k : K) (x y : Job K) (s : Sys K) : Prop where
  closed : s.sch.closed = false
  map : (k, w) ∈ s.sch.map
  post : s.sch.threads t = .wAdv w x
  mine : x.caller = p
  me : s.sch.threads p = .blockAdd w y
  jobs : c.asyncSize ≤ (s.jobs p).length
  head : (s.sch.wk w).queue.head ≠ none
  full : (s.sch.wk w).queue.cap ≤ (s.sch.wk w).queue.buf.length

/-- Nothing else is going on. -/
structure Still (c : Cfg) (p m : Nat) (k : K) (w : Nat) (s : Sys K) : Prop where
  map : s.sch.map = [(k, w)]
  chan : s.sch.chans 0 = []
  cur : s.sch.cur = 0
  evq : s.evq p = []
  aside : Aside c p m s

theorem fill_stuck {c : Cfg} {p n m w : Nat} {k : K} {x : Job K} {s : Sys K} (hp : 1 ≤ p) (hp' : c.sched.concurrency ≤ p) (P : Fill c p n m k w x s) (hn : n + 1 < c.maxPending)
    (hm : m = (if c.sched.depth < 2 then 2 else c.sched.depth) - 1) (hnn : c.asyncSize ≤ n) :
    ∃ s' y, run c s [.arrive p k, .handle p, .inner (.lock p none)] = some s' ∧ Stuck c p 0 w k x y s' ∧ Still c p (p + m + 1) k w s' := by
  have hp0 : p ≠ 0 := by omega
  have h0p : (0 : Nat) ≠ p := by omega
  have hin : 0 < c.inputSize := by unfold Cfg.inputSize; omega
  obtain ⟨q1, q2, q4, q6, q10, q11, q12, q13, q14, q15, q17, q18, q19, a1, a2, a3, a4⟩ := P
  obtain ⟨y, hy⟩ := Option.ne_none_iff_exists'.1 q17
  have hfull : ¬ m < (if c.sched.depth < 2 then 2 else c.sched.depth) - 1 := by omega
  suffices h : ∃ s', run c s [.arrive p k, .handle p, .inner (.lock p none)] = some s' ∧ Stuck c p 0 w k x ⟨k, p, s.next⟩ s' ∧ Still c p (p + m + 1) k w s' by
    obtain ⟨s', h1, h2⟩ := h
    exact ⟨s', _, h1, h2⟩
  rw [← hm] at q19
  simp [run, step, hp', q14, hn, q15, hin, upd, Scheduler.step, q12, q1, State.goto, State.lock, State.lookup, q2, State.add, State.setQ, Queue.tryEnqueue, Queue.tryEnqueue1, hy,
    Queue.trySend, q18, q19]
  constructor
  · constructor <;> simp [q1, q2, q10, q11, q12, q13, q14, q15, hy, q18, q19, hp0, h0p, upd, hnn]
  · constructor
    case aside =>
      constructor
      · intro t h1 h2
        have e1 : t ≠ p := by omega
        simp [upd, e1, a1 t h1 h2]
      · intro q hq
        have e1 : q ≠ p := by omega
        simp [upd, e1, a2 q hq]
      · intro q hq; simp [upd, hq, a3 q hq]
      · intro q hq
        have e1 : q ≠ p := by omega
        simp [upd, e1, a4 q hq]
    all_goals simp [q2, q4, q6, q15, upd]

/-- The deadlock is reached, for every scheduler, as soon as there are two slots more than fit into `asyncJobs`. -/
theorem reach_stuck {c : Cfg} (k : K) (hc : 1 ≤ c.sched.concurrency) (hP : c.asyncSize + 2 ≤ c.maxPending) :
    ∃ (as : List (Act K)) (s : Sys K) (m w : Nat) (x y : Job K), run c (Sys.init c) as = some s ∧ (∀ a ∈ as, plain a = true) ∧
      Stuck c c.sched.concurrency 0 w k x y s ∧ Still c c.sched.concurrency m k w s := by
  have hmax : (if c.sched.depth < 2 then 2 else c.sched.depth) = max c.sched.depth 2 := by split <;> omega
  obtain ⟨as, s, e, hn, R⟩ := reach_rest k hc c.asyncSize (Nat.le_refl _) (by omega)
  obtain ⟨s1, w, x, e1, P⟩ := reach_post k hc (Nat.le_refl _) R (by omega)
  obtain ⟨s2, e2, F⟩ := fill_start hc (Nat.le_refl _) P (by omega)
  have hfill : ∀ m, m ≤ max c.sched.depth 2 - 1 → ∃ (bs : List (Act K)) (u : Sys K), run c s2 bs = some u ∧ (∀ a ∈ bs, plain a = true) ∧
      Fill c c.sched.concurrency c.asyncSize m k w x u := by
    intro m
    induction m with
    | zero => intro _; exact ⟨[], s2, rfl, by simp, F⟩
    | succ m ih =>
      intro hm
      obtain ⟨bs, u, e3, h3, F3⟩ := ih (by omega)
      obtain ⟨u', e4, F4⟩ := fill_step hc (Nat.le_refl _) F3 (by omega) (by rw [hmax]; omega)
      refine ⟨bs ++ _, u', run_append e3 e4, ?_, F4⟩
      intro a ha
      simp only [List.mem_append, List.mem_cons, List.not_mem_nil, or_false] at ha
      rcases ha with ha | rfl | rfl | rfl
      · exact h3 a ha
      all_goals rfl
  obtain ⟨bs, u, e3, h3, F3⟩ := hfill _ (Nat.le_refl _)
  obtain ⟨u', y, e4, S, Q⟩ := fill_stuck hc (Nat.le_refl _) F3 (by omega) (by rw [hmax]) (Nat.le_refl _)
  refine ⟨as ++ (toPost c.sched.concurrency k ++ (_ ++ (bs ++ _))), u', _, w, x, y, run_append e (run_append e1 (run_append e2 (run_append e3 e4))), ?_, S, Q⟩
  intro a ha
  simp only [toPost, List.mem_append, List.mem_cons, List.not_mem_nil, or_false] at ha
  rcases ha with ha | ha | ha | ha | ha
  · exact hn a ha
  · rcases ha with rfl | rfl | rfl | rfl | rfl | rfl | rfl | rfl <;> rfl
  · rcases ha with rfl | rfl | rfl <;> rfl
  · exact h3 a ha
  · rcases ha with rfl | rfl | rfl <;> rfl

/-! ### For ever -/

/-- A full queue that is held by a goroutine submitting a completion stays full, whatever the others do. -/
theorem full_step {s s' : State K} {l : Label K} {k : K} {t w : Nat} {x : Job K} (G : Good s) (hm : (k, w) ∈ s.map) (ht : s.threads t = .wAdv w x)
    (hh : (s.wk w).queue.head ≠ none) (hf : (s.wk w).queue.cap ≤ (s.wk w).queue.buf.length) (h : Scheduler.step s l = some s') :
    (k, w) ∈ s'.map ∧ (s'.wk w).queue.head ≠ none ∧ (s'.wk w).queue.cap ≤ (s'.wk w).queue.buf.length := by
  have G1 := G.1
  have C := coh_view s
  have hold : s.view.hold t = some w := by simp [State.view, ht, Phase.hold]
  have hadv : s.view.adv t = some (w, x) := by simp [State.view, ht, Phase.adv]
  have uniq : ∀ u, s.view.hold u = some w → u = t := by
    intro u hu
    have := G1.tokUniq w (.th u) (.th t) hu hold
    simpa using this
  change (k, w) ∈ s.view.map at hm
  change (s.view.wk w).queue.head ≠ none at hh
  change (s.view.wk w).queue.cap ≤ (s.view.wk w).queue.buf.length at hf
  change (k, w) ∈ s'.view.map ∧ (s'.view.wk w).queue.head ≠ none ∧ (s'.view.wk w).queue.cap ≤ (s'.view.wk w).queue.buf.length
  rcases step_view (good_pool G1) h with h | h
  · rw [h]; exact ⟨hm, hh, hf⟩
  generalize s.view = v at *
  generalize s'.view = v' at *
  have enq : ∀ (y : Job K), ((v.wk w).queue.tryEnqueue y).1.head ≠ none ∧
      ((v.wk w).queue.tryEnqueue y).1.cap ≤ ((v.wk w).queue.tryEnqueue y).1.buf.length := by
    intro y
    obtain ⟨z, hz⟩ := Option.ne_none_iff_exists'.mp hh
    simp [Queue.tryEnqueue, Queue.tryEnqueue1, Queue.trySend, hz, Nat.not_lt.mpr hf, hf]
  cases h with
  | addOld u y w' q h1 h2 h3 h4 =>
    refine ⟨hm, ?_⟩
    by_cases e : w' = w
    · subst e; have := enq y; rw [h4] at this; simpa [View.setQ] using this
    · simp only [View.setQ, upd_ne _ _ (Ne.symm e)]; exact ⟨hh, hf⟩
  | blockOld u y w' q h1 h2 h3 h4 =>
    refine ⟨hm, ?_⟩
    by_cases e : w' = w
    · subst e; have := enq y; rw [h4] at this; simpa [View.setQ] using this
    · simp only [View.setQ, upd_ne _ _ (Ne.symm e)]; exact ⟨hh, hf⟩
  | addNew u y w' nw' pool' wk' h1 h2 h3 h4 h5 h6 h7 h8 h9 h10 h11 h12 =>
    have e : w ≠ w' := by
      rintro rfl
      rcases h5 with h5 | h5
      · exact G1.mapPool k w hm h5.1
      · have := G1.mapLt k w hm; omega
    refine ⟨List.mem_append_left _ hm, ?_⟩
    dsimp only
    rw [h6 w e]; exact ⟨hh, hf⟩
  | put u y w' q h1 h2 h4 =>
    refine ⟨hm, ?_⟩
    by_cases e : w' = w
    · subst e; unfold Queue.put at h4; rw [if_neg (Nat.not_lt.mpr hf)] at h4; simp at h4
    · simp only [View.setQ, upd_ne _ _ (Ne.symm e)]; exact ⟨hh, hf⟩
  | finish u w' y h1 h2 =>
    refine ⟨hm, ?_⟩
    by_cases e : w' = w
    · subst e
      have := uniq u (C.proc_hold u _ _ h1)
      subst this; rw [h2] at hadv; simp at hadv
    · simp only [View.setQ, upd_ne _ _ (Ne.symm e)]; exact ⟨hh, hf⟩
  | release u w' h1 h2 h3 h4 =>
    have e : w' ≠ w := by
      rintro rfl
      have := uniq u h1
      subst this; rw [h3] at hadv; simp at hadv
    refine ⟨?_, ?_⟩
    · simp only [List.mem_filter, decide_eq_true_eq]
      refine ⟨hm, fun hk => ?_⟩
      obtain ⟨k', hk'⟩ := G1.tokMap w' (.th u) h1
      rw [G1.mapKey k' w' hk'] at hk
      simp only [Option.some.injEq] at hk
      subst hk
      exact e (nodup_fst_inj G1.keysNodup hk' hm)
    · simp only [upd_ne _ _ (Ne.symm e)]; exact ⟨hh, hf⟩
  | _ => exact ⟨hm, hh, hf⟩

theorem step_closed {s s' : State K} {l : Label K} (h : Scheduler.step s l = some s') (hl : l ≠ .close) : s'.closed = s.closed := by
  cases l with
  | call x =>
    simp only [Scheduler.step] at h
    split at h
    · split at h
      · simp at h
      · simp only [Option.some.injEq] at h; subst h; rfl
    · simp at h
  | setMax t n =>
    simp only [Scheduler.step] at h
    split at h
    · unfold State.setMax at h
      split at h
      · split at h <;> simp only [Option.some.injEq] at h <;> subst h <;> rfl
      · simp at h
    · simp at h
  | setDepth n => simp only [Scheduler.step, Option.some.injEq] at h; subst h; rfl
  | close => exact absurd rfl hl
  | _ => exact unaided_closed rfl h

/-- Nothing but the end of the scheduler changes a stuck pair. -/
theorem stuck_step {c : Cfg} {s s' : Sys K} {a : Act K} {p t w : Nat} {k : K} {x y : Job K} (I : Inv c s) (S : Stuck c p t w k x y s)
    (h : step c s a = some s') (ha : a ≠ .inner .close) : Stuck c p t w k x y s' := by
  obtain ⟨q1, q2, q3, q4, q5, q6, q7, q8⟩ := S
  have inner : ∀ (l : Label K) (sch : State K), l ≠ .close → l.thr ≠ some t → l.thr ≠ some p → Scheduler.step s.sch l = some sch →
      ∀ u : Sys K, u.sch = sch → u.jobs p = s.jobs p → Stuck c p t w k x y u := by
    intro l sch hl h1 h2 e u hu hj
    obtain ⟨f1, f2, f3⟩ := full_step I.good q2 q3 q7 q8 e
    subst hu
    refine ⟨?_, f1, ?_, q4, ?_, by rw [hj]; exact q6, f2, f3⟩
    · rw [step_closed e hl]; exact q1
    · rw [step_other e h1]; exact q3
    · rw [step_other e h2]; exact q5
  cases a with
  | arrive u k' =>
    simp only [step] at h
    split at h
    · simp only [Option.some.injEq] at h; subst h; exact ⟨q1, q2, q3, q4, q5, q6, q7, q8⟩
    · simp at h
  | handle u =>
    simp only [step] at h
    split at h
    · rename_i z rest hz
      simp only [Option.map_eq_some_iff] at h
      obtain ⟨sch, e, rfl⟩ := h
      refine inner _ sch (by simp) ?_ ?_ e _ rfl rfl
      · intro hc
        simp only [Label.thr, Option.some.injEq] at hc
        simp [Scheduler.step, hc, q3] at e
      · intro hc
        simp only [Label.thr, Option.some.injEq] at hc
        simp [Scheduler.step, hc, q5] at e
    · simp at h
  | job u =>
    simp only [step] at h
    split at h
    · rename_i z rest hi hj
      simp only [Option.some.injEq] at h; subst h
      have : p ≠ u := by rintro rfl; rw [hi] at q5; simp at q5
      refine ⟨q1, q2, q3, q4, q5, ?_, q7, q8⟩
      dsimp only; rw [upd_ne _ _ this]; exact q6
    · simp at h
  | inner l =>
    rcases inner_cases h with ⟨t', w', x', sch, rfl, ht, hr, e, rfl⟩ | ⟨h1, h2, sch, e, rfl⟩
    · have hx : x'.caller ≠ p := by intro hc; rw [hc] at hr; omega
      refine inner _ sch (by simp) ?_ ?_ e _ rfl ?_
      · intro hc
        simp only [Label.thr, Option.some.injEq] at hc
        subst hc
        rw [q3] at ht
        injection ht with _ hxx
        subst hxx
        exact hx q4
      · intro hc
        simp only [Label.thr, Option.some.injEq] at hc
        subst hc
        rw [q5] at ht
        simp at ht
      · dsimp only; rw [upd_ne _ _ (Ne.symm hx)]
    · refine inner l sch (fun hl => ha (by rw [hl])) ?_ ?_ e _ rfl rfl
      · intro hc
        cases l <;> simp only [Label.thr, Option.some.injEq, reduceCtorEq] at hc
        case call z => exact h1 z rfl
        case complete z => exact h2 z rfl
        all_goals (subst hc; simp [Scheduler.step, q3] at e)
      · intro hc
        cases l <;> simp only [Label.thr, Option.some.injEq, reduceCtorEq] at hc
        case call z => exact h1 z rfl
        case complete z => exact h2 z rfl
        case put z => subst hc; simp [Scheduler.step, q5, Queue.put, Nat.not_lt.mpr q8] at e
        case cancel z => subst hc; simp [Scheduler.step, q5, q1] at e
        all_goals (subst hc; simp [Scheduler.step, q5] at e)

theorem stuck_run {c : Cfg} {p t w : Nat} {k : K} {x y : Job K} {as : List (Act K)} {s s' : Sys K} (I : Inv c s) (S : Stuck c p t w k x y s)
    (h : run c s as = some s') (ha : ∀ a ∈ as, a ≠ .inner .close) : Stuck c p t w k x y s' := by
  induction as generalizing s with
  | nil => simp only [run, Option.some.injEq] at h; subst h; exact S
  | cons a as ih =>
    simp only [run, Option.bind_eq_some_iff] at h
    obtain ⟨s1, e1, e2⟩ := h
    exact ih (inv_step I e1) (stuck_step I S e1 (ha a (by simp))) e2 fun b hb => ha b (by simp [hb])

/-- A stuck worker takes neither an event nor a job. -/
theorem stuck_dead {c : Cfg} {p t w : Nat} {k : K} {x y : Job K} {s : Sys K} (I : Inv c s) (S : Stuck c p t w k x y s) :
    step c s (.handle p) = none ∧ step c s (.job p) = none := by
  constructor
  · simp only [step]
    split
    · rename_i z rest hz
      have hm := I.mine p z (by rw [hz]; simp)
      simp [Scheduler.step, hm, S.me]
    · rfl
  · simp [step, S.me]

end Verif.Backlog
