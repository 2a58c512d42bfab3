import Verif.Promise.Once
import Verif.Promise.Stuck
/-
Property C89: partition workers and a `BatchProducer` never wait for each other (streams/partition_worker.go, streams/producer.go).
-/
namespace Verif.Promise

/-- Everything except the arrival of new events: what workers, handlers and the client do by themselves. -/
def Spec.own (a : Act) : Prop := ∀ p n, a ≠ .arrive p n

/-- Nothing goes on by itself. -/
def Spec.still (c : Cfg) (s : Sys) : Prop := ∀ a, Spec.own a → step c s a = none

/-- Every event that arrived has been completed, exactly once; nothing is left anywhere. -/
def Spec.allCompleted (s : Sys) : Prop :=
  (s.done.map (·.id)).Perm (List.range s.next) ∧ s.buf = [] ∧ s.posting = none ∧ ∀ p, s.ph p = .idle ∧ s.evq p = [] ∧ s.jobs p = [] ∧ s.slots p = 0

/-- Whatever happens later, no worker gets a record into the client any more, the worker `p` takes neither an event nor a job, and no promise runs or returns. -/
def Spec.dead (c : Cfg) (p : Nat) (s : Sys) : Prop :=
  ∀ as s', run c s as = some s' →
    (∀ q, step c s' (.produce q) = none) ∧ step c s' (.handle p) = none ∧ step c s' (.job p) = none ∧ step c s' .post = none ∧ ∀ i, step c s' (.promise i) = none

/-- C89, partial: while there are no more slots than places in `asyncJobs`, a promise that ran never waits for the worker.
The missing part is a larger `MaxBatchSize*PoolSize`, as by default, where the claim is false (`C89_violated`). -/
theorem C89_post_never_blocks_partial {c : Cfg} {s : Sys} (h : Reach c s) (hP : c.maxPending ≤ c.asyncSize) {e : Ev} (hp : s.posting = some e) :
    ∃ s', step c s .post = some s' ∧ e ∈ s'.jobs e.part ∧ s'.posting = none := by
  have := room (inv_reach h) hp
  have hr : (s.jobs e.part).length < c.asyncSize := by omega
  exact ⟨_, by simp only [step, hp, if_pos hr]; rfl, by simp, rfl⟩

/-- C89: however the workers, the handlers and the client are scheduled, and however long the channels are, after finitely many steps nothing goes on by itself. -/
theorem C89_every_schedule_ends {c : Cfg} {s : Sys} (h : Reach c s) : ∃ n, ∀ as s', run c s as = some s' → (∀ a ∈ as, Spec.own a) → as.length ≤ n := by
  obtain ⟨N, O⟩ := outside_reach h
  exact ⟨todo N s, fun as s' h' ha => by have := own_run (inv_reach h) O ha h'; omega⟩

/-- C89, partial: with at most one slot more than places in `asyncJobs`, when nothing goes on by itself then every event that arrived has been completed, exactly once, and all
slots have been given back. With `C89_every_schedule_ends`: every schedule completes all events. The missing part is a larger `MaxBatchSize*PoolSize`. -/
theorem C89_all_completed_partial {c : Cfg} {s : Sys} (h : Reach c s) (hP : c.maxPending ≤ c.asyncSize + 1) (hB : 1 ≤ c.maxBuffered) (hend : Spec.still c s) :
    Spec.allCompleted s := by
  have hq := quiet (inv_reach h) hP hB hend
  exact ⟨done_all (trace_reach h) (hq 0).2.2.1 (hq 0).2.2.2 fun p => ⟨(hq p).1.2.1, (hq p).1.2.2.1⟩, (hq 0).2.1, (hq 0).2.2.2, fun p => (hq p).1⟩

/-- C89: no event is completed twice, whatever the sizes are. -/
theorem C89_completed_once {c : Cfg} {s : Sys} (h : Reach c s) : (s.done.map (·.id)).Nodup := done_once (trace_reach h)

/-- C89 is violated as soon as there are two slots more than places in `asyncJobs`: a handler waits in `client.Produce` because the client is full, and the client waits with a promise
because `asyncJobs` of this worker is full. From then on no worker can produce with this client. -/
theorem C89_violated (c : Cfg) (hB : 1 ≤ c.maxBuffered) (hP : c.asyncSize + 2 ≤ c.maxPending) :
    ∃ s p e l, Reach c s ∧ s.ph p = .producing e l ∧ Spec.dead c p s := by
  have hI : 0 < c.inputSize := by show 0 < max (c.maxBatch / 10) 100; omega
  obtain ⟨s, h, S⟩ := stuck_reach hB hI hP
  obtain ⟨e, l, he⟩ := S.ph
  refine ⟨s, 0, e, l, h, he, fun as s' h' => ?_⟩
  obtain ⟨⟨e, l, q1⟩, q2, ⟨f, q3, q4⟩, q5⟩ := stuck_run S h'
  refine ⟨fun q => ?_, by simp [step, q1], by simp [step, q1], by simp [step, q3, q4, Nat.not_lt.2 q2], fun i => by simp [step, q3]⟩
  simp only [step]
  split
  · rw [if_neg (by omega)]
  · rfl

/-- C89 is violated with the default sizes: `MaxBatchSize` 10000, `PoolSize` 3, and the client's 10000 records. -/
theorem C89_violated_default : ∃ s p e l, Reach ⟨10000, 3, 10000⟩ s ∧ s.ph p = .producing e l ∧ Spec.dead ⟨10000, 3, 10000⟩ p s := by
  refine C89_violated _ (by show 1 ≤ 10000; omega) ?_
  show max (10000 / 10) 100 * 4 + 2 ≤ 10000 * 3
  omega

/-- C89: from every state some schedule leads to a state in which nothing goes on by itself. -/
theorem C89_comes_to_rest {c : Cfg} {s : Sys} (h : Reach c s) : ∃ as s', run c s as = some s' ∧ (∀ a ∈ as, Spec.own a) ∧ Spec.still c s' := by
  obtain ⟨n, hn⟩ := C89_every_schedule_ends h
  have key : ∀ k, ∃ as s', run c s as = some s' ∧ (∀ a ∈ as, Spec.own a) ∧ (Spec.still c s' ∨ k ≤ as.length) := by
    intro k
    induction k with
    | zero => exact ⟨[], s, rfl, by simp, .inr (Nat.zero_le _)⟩
    | succ k ih =>
      obtain ⟨as, s', h1, h2, h3⟩ := ih
      by_cases hst : Spec.still c s'
      · exact ⟨as, s', h1, h2, .inl hst⟩
      · have hst' := hst
        unfold Spec.still at hst'
        simp only [not_forall] at hst'
        obtain ⟨a, ha, hne⟩ := hst'
        obtain ⟨s2, hs2⟩ := Option.ne_none_iff_exists'.1 hne
        refine ⟨as ++ [a], s2, run_append h1 (by simp [run, hs2]), ?_, .inr ?_⟩
        · intro b hb
          simp only [List.mem_append, List.mem_singleton] at hb
          rcases hb with hb | rfl
          · exact h2 b hb
          · exact ha
        · rcases h3 with h3 | h3
          · exact absurd h3 hst
          · simp; omega
  obtain ⟨as, s', h1, h2, h3⟩ := key (n + 1)
  rcases h3 with h3 | h3
  · exact ⟨as, s', h1, h2, h3⟩
  · have := hn as s' h1 h2
    omega

/-- C89: exactly which sizes are safe: with one slot more than places in `asyncJobs` all events are completed when nothing goes on by itself, with two this is not so. -/
theorem C89_exact_sizes (c : Cfg) (hB : 1 ≤ c.maxBuffered) :
    (∀ s, Reach c s → Spec.still c s → Spec.allCompleted s) ↔ c.maxPending ≤ c.asyncSize + 1 := by
  constructor
  · intro h
    by_contra hc
    obtain ⟨s, hr, S⟩ := stuck_reach hB (show 0 < max (c.maxBatch / 10) 100 by omega) (by omega : c.asyncSize + 2 ≤ c.maxPending)
    obtain ⟨as, s', h1, _, h3⟩ := C89_comes_to_rest hr
    obtain ⟨bs, hbs⟩ := hr
    have hall := h s' ⟨_, run_append hbs h1⟩ h3
    obtain ⟨e, l, hph⟩ := (stuck_run S h1).ph
    rw [(hall.2.2.2 0).1] at hph
    simp at hph
  · exact fun hP s hr hs => C89_all_completed_partial hr hP hB hs

/-- C89: in the numbers of the configuration: at most 401 slots are safe, more are not. -/
theorem C89_exact_numbers (c : Cfg) (hB : 1 ≤ c.maxBuffered) (hp : 1 ≤ c.poolSize) :
    (∀ s, Reach c s → Spec.still c s → Spec.allCompleted s) ↔ c.maxBatch * c.poolSize ≤ 401 := by
  rw [C89_exact_sizes c hB]
  show c.maxBatch * c.poolSize ≤ max (c.maxBatch / 10) 100 * 4 + 1 ↔ _
  have := Nat.le_mul_of_pos_right c.maxBatch hp
  omega

/-! ### Examples -/

/-- Small sizes: 100 events per batch, 3 producers, a client for 2 records. `streams/eos_producer.go:140-142`. -/
def exCfg : Cfg := ⟨100, 3, 2⟩

/-- Two workers, three events with two, one and one records; the promises of the records run in another order than the records were produced. `streams/producer.go:135-178`. -/
def exRun : List Act :=
  [.arrive 0 1, .arrive 1 0, .arrive 0 0, .handle 0, .handle 1, .produce 0, .produce 1, .promise 1, .post, .produce 0, .promise 0, .job 1, .promise 0]

-- a promise is about to hand over the job of the first event, the sizes are safe
example : ∃ s, run exCfg Sys.init exRun = some s ∧ s.posting = some ⟨0, 0, 2⟩ ∧ exCfg.maxPending ≤ exCfg.asyncSize ∧ s.done = [⟨1, 1, 1⟩] :=
  ⟨_, rfl, rfl, by decide, rfl⟩

-- a handler waits while the client is full, and goes on when a promise has returned
example : run exCfg Sys.init (exRun.take 7 ++ [.produce 0]) = none ∧ (run exCfg Sys.init (exRun.take 9 ++ [.produce 0])).isSome := by decide +kernel

-- the rest of the run: everything is completed
example : ∃ s, run exCfg Sys.init (exRun ++ [.post, .handle 0, .produce 0, .promise 0, .job 0, .post, .job 0]) = some s ∧ s.done.map (·.id) = [1, 0, 2] ∧ s.next = 3 ∧ s.slots 0 = 0 :=
  ⟨_, rfl, rfl, rfl, rfl⟩

-- a reachable state in which nothing goes on, after three events
example : ∃ s, Reach exCfg s ∧ s.next = 3 ∧ Spec.still exCfg s := by
  have hr : run exCfg Sys.init (exRun ++ [.post, .handle 0, .produce 0, .promise 0, .job 0, .post, .job 0]) = some _ := rfl
  refine ⟨_, ⟨_, hr⟩, rfl, ?_⟩
  intro a ha
  cases a with
  | arrive p n => exact absurd rfl (ha p n)
  | handle p => match p with | 0 => rfl | 1 => rfl | p + 2 => rfl
  | produce p => match p with | 0 => rfl | 1 => rfl | p + 2 => rfl
  | promise i => rfl
  | post => rfl
  | job p => match p with | 0 => rfl | 1 => rfl | p + 2 => rfl

-- sizes that are not safe: 1000 events per batch are enough
example : (Cfg.mk 1000 3 10000).asyncSize + 2 ≤ (Cfg.mk 1000 3 10000).maxPending ∧ 1 ≤ (Cfg.mk 1000 3 10000).maxBuffered := by decide

end Verif.Promise
