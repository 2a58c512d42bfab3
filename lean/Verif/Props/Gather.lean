import Verif.Gather.Ends
/-
Property C90: partition workers and an `AsyncBatcher` never wait for each other (streams/partition_worker.go, streams/async_batcher.go).
-/
namespace Verif.Gather
open Verif.Batcher (Batch)

variable {K : Type} [DecidableEq K]

/-- Everything except the arrival of new events: what workers, handlers, timers and the goroutines of the batcher do by themselves. -/
def Spec.own (a : Act K) : Prop := ∀ p k ks, a ≠ .arrive p k ks

/-- Nothing goes on by itself. -/
def Spec.still (c : Cfg) (s : Sys K) : Prop := ∀ a, Spec.own a → step c s a = none

/-- Every event that arrived has been completed, exactly once, by the worker of its partition, and every slot has been given back. -/
def Spec.allCompleted (s : Sys K) : Prop :=
  s.done.Perm (List.range s.next) ∧ ∀ p, s.evq p = [] ∧ s.b.adders p = [] ∧ s.jobs p = [] ∧ s.slots p = 0

/-- **C90** (a handler never waits). A handler that has items left to add can always add the next one. -/
theorem C90_add_never_blocks {c : Cfg} {s : Sys K} (p : Nat) (h : s.b.adders p ≠ []) : ∃ s', step c s (.add p) = some s' ∧ s'.b.adders p = (s.b.adders p).tail := by
  cases hx : s.b.adders p with
  | nil => exact absurd hx h
  | cons x r =>
    refine ⟨_, by simp only [step, Batcher.step, hx, Option.map_some]; rfl, ?_⟩
    dsimp only
    rw [(Batcher.addOne_fields _ x).1]
    simp

/-- **C90** (a completed batch gets through). While `asyncJobs` of a worker is full, the worker is busy with a handler, which never waits, or takes a job: a goroutine of the batcher
that waits for it does not wait for ever. -/
theorem C90_full_channel_moves {c : Cfg} {s : Sys K} (p : Nat) (h : c.asyncSize ≤ (s.jobs p).length) :
    (∃ s', step c s (.add p) = some s') ∨ ∃ s', step c s (.job p) = some s' ∧ (s'.jobs p).length < (s.jobs p).length := by
  cases hx : s.b.adders p with
  | cons x r => exact .inl ⟨_, by simp only [step, Batcher.step, hx, Option.map_some]; rfl⟩
  | nil =>
    cases hj : s.jobs p with
    | nil => have := asyncSize_pos c; simp [hj] at h; omega
    | cons e rest => exact .inr ⟨_, by simp only [step, hx, hj]; rfl, by simp⟩

/-- **C90** (termination). However the workers, the timers and the goroutines of the batcher are scheduled, after finitely many steps nothing goes on by itself. -/
theorem C90_every_schedule_ends {c : Cfg} (hm : 1 ≤ c.batchSize) {s : Sys K} (h : Reach c s) :
    ∃ n, ∀ as s', run c s as = some s' → (∀ a ∈ as, Spec.own a) → as.length ≤ n := by
  obtain ⟨N, O⟩ := outside_reach hm h
  exact ⟨todo N s, fun as s' h' ha => by have := own_run (inv_reach hm h) O ha h'; omega⟩

/-- **C90** (completion). When nothing goes on by itself, every event that arrived has been completed, exactly once, and all slots are free: for all sizes of the channels, of the
batches and of the number of concurrent batches. With `C90_every_schedule_ends`: every schedule completes all events. -/
theorem C90_all_completed {c : Cfg} (hm : 1 ≤ c.batchSize) (hn : 1 ≤ c.concurrent) {s : Sys K} (h : Reach c s) (hend : Spec.still c s) : Spec.allCompleted s := by
  have I := inv_reach hm h
  obtain ⟨hq, hin⟩ := quiet I hn hend
  have hperm : s.done.Perm (List.range s.next) := by
    rw [List.perm_iff_count]
    intro e
    have := I.one e
    simp only [copies, (hq (s.part e)).1, (hq (s.part e)).2.2, hin] at this
    rw [List.nodup_range.count]
    simpa using this
  refine ⟨hperm, fun p => ⟨(hq p).1, (hq p).2.1, (hq p).2.2, ?_⟩⟩
  have := I.slot p
  rw [hperm.countP_eq] at this
  omega

/-- **C90** (exactly once, and within the limit). At every moment no event has been completed twice, completed events have arrived, and no worker has more than its slots. -/
theorem C90_completed_once {c : Cfg} (hm : 1 ≤ c.batchSize) {s : Sys K} (h : Reach c s) :
    s.done.Nodup ∧ (∀ e ∈ s.done, e < s.next) ∧ ∀ p, s.slots p ≤ c.maxPending := by
  have I := inv_reach hm h
  refine ⟨?_, fun e he => I.lt (.inl he), I.cap⟩
  rw [List.nodup_iff_count_le_one]
  intro e
  have := I.one e
  simp only [copies] at this
  split at this <;> omega

/-! ### Examples -/

/-- Small sizes: batches of two items, one at a time. `streams/async_batcher.go:173`. -/
def exCfg : Cfg := ⟨1, 1, 2, 1⟩

/-- The event of worker 0 adds two items with different keys, the one of worker 1 none; the batch is executed when it is full, the placeholder waits and is executed by the timer.
`streams/async_batcher.go:195-311`. -/
def exRun : List (Act Nat) :=
  [.arrive 0 5 [5, 6], .arrive 1 7 [], .handle 0, .handle 1, .add 0, .add 0, .add 1, .go 0 0, .go 0 0, .go 0 0, .go 0 0, .go 0 0, .go 0 0, .job 0, .fire 0, .flush 0,
   .go 0 0, .go 0 0, .go 0 0, .job 1]

example : ∃ s, run exCfg (Sys.init exCfg) exRun = some s ∧ s.done = [0, 1] ∧ s.next = 2 ∧ s.slots 0 = 0 ∧ s.slots 1 = 0 ∧ s.b.called = [0, 1] := by
  refine ⟨_, rfl, ?_⟩
  decide +kernel

-- a handler in the middle of its items
example : ∃ s, run exCfg (Sys.init exCfg) (exRun.take 5) = some s ∧ s.b.adders 0 ≠ [] := by
  refine ⟨_, rfl, ?_⟩
  decide +kernel

-- a full channel
example : exCfg.asyncSize ≤ (({ Sys.init exCfg with jobs := fun _ => List.replicate 400 0 } : Sys Nat).jobs 0).length := by
  dsimp only
  rw [List.length_replicate]
  decide

-- nothing goes on by itself after the run
example : ∃ s : Sys Nat, Reach exCfg s ∧ s.next = 2 ∧ Spec.still exCfg s := by
  have hr : run exCfg (Sys.init exCfg) exRun = some _ := rfl
  refine ⟨_, ⟨_, hr⟩, rfl, ?_⟩
  intro a ha
  cases a with
  | arrive p k ks => exact absurd rfl (ha p k ks)
  | handle p => match p with | 0 => rfl | 1 => rfl | p + 2 => rfl
  | add p => match p with | 0 => rfl | 1 => rfl | p + 2 => rfl
  | fire i => match i with | 0 => rfl | i + 1 => rfl
  | flush i => match i with | 0 => rfl | i + 1 => rfl
  | go i j => match i with | 0 => rfl | i + 1 => rfl
  | job p => match p with | 0 => rfl | 1 => rfl | p + 2 => rfl

end Verif.Gather
