import Verif.Boot.Proofs
/-
C107. Starting an event source. The full property: no pointer is used before it is set, whenever the client of the group calls back; every partition
worker has every interjection that the application scheduled before `ConsumeEvents`; a start that fails leaves nothing running.

It holds only when no partition is assigned before `NewEventSource` has returned. The Kafka client joins the group as soon as it is made, before the
producer pool, the balancer, the state store consumer and the consumer itself are stored, and nothing waits for that.
-/
set_option linter.unusedSectionVars false
set_option linter.unusedSimpArgs false
set_option linter.unusedVariables false
namespace Verif.Boot

/-- The actions of a start without failures. -/
def boot : List Act := [.main true, .main true, .main true, .main true, .main true, .main true, .main true]

/-- Partial: with the incremental balancer and no assignment before `NewEventSource` has returned, nothing that is nil is dereferenced.
Missing: assignments that come earlier, see `C107_violated_stores` and `C107_violated_consumer`. -/
theorem C107_no_crash_partial {s : S} (h : Reach true s) (he : s.early = false) : s.crash = none := by
  by_contra hc
  rcases ((inv_reach h).crash' hc).2 with h1 | h1
  · rw [he] at h1; cases h1
  · cases h1

/-- Which dereferences can fail, exactly: `stateStoreConsumer` in `activatePartition`, while it is not set; `eventSource.consumer` in the goroutine
of a worker, while it is not set; and the balancer, when there is no incremental one (C60). The producer pool is always set when a worker is made. -/
theorem C107_sites {incr : Bool} {s : S} (h : Reach incr s) {x : Nil} (hx : s.crash = some x) :
    (x = .stores ∧ s.stores = false) ∨ (x = .consumer ∧ s.consumer = false ∧ s.workers ≠ []) ∨ (x = .balancer ∧ incr = false) :=
  (inv_reach h).crash x hx

/-- `NewEventSource` returns without an error only when all is set and the client has begun to join; with an error the consumer is not set. -/
theorem C107_complete {incr : Bool} {s : S} (h : Reach incr s) :
    (s.pc = .back false ∨ s.pc = .consuming → s.joined = true ∧ s.pool = true ∧ s.balancer = incr ∧ s.stores = true ∧ s.consumer = true) ∧
    (s.pc = .back true → s.joined = false ∧ s.consumer = false ∧ s.workers = [] ∧ s.crash = none) := by
  have I := inv_reach h
  constructor
  · intro hp
    have hne : s.pc ≠ .back true := by rcases hp with hp | hp <;> rw [hp] <;> simp
    refine ⟨I.ok hp, ?_, ?_, ?_, ?_⟩
    · rw [I.pool hne]; rcases hp with hp | hp <;> rw [hp] <;> rfl
    · rw [I.balancer hne]; rcases hp with hp | hp <;> rw [hp] <;> simp [rank]
    · rw [I.stores hne]; rcases hp with hp | hp <;> rw [hp] <;> rfl
    · rw [I.consumer hne]; rcases hp with hp | hp <;> rw [hp] <;> rfl
  · intro hp
    have hj : s.joined = false := by
      by_contra hj
      exact (I.joined (by simpa using hj)).2.2 hp
    refine ⟨hj, (I.failed hp).2.1, (I.quiet hj).2, ?_⟩
    by_contra hc
    rw [(I.crash' hc).1] at hj; cases hj

/-- Violated: whenever the client has joined and calls back with any partitions before the state store consumer is stored, the process panics (unless
the statements of `NewEventSource` come between). -/
theorem C107_violated_stores {incr : Bool} {s : S} (h : Reach incr s) (hj : s.joined = true) (hs : s.stores = false) (hc : s.crash = none)
    (hcb : s.cb = .none) {ps : List Nat} (hps : ps ≠ []) :
    ∃ s', run incr s [.assigned ps, .callback] = some s' ∧ s'.crash = some .stores := by
  have I := inv_reach h
  have hw : s.workers = [] := by
    by_contra hw
    rw [I.cbs (Or.inr (Or.inr (Or.inr hw)))] at hs; cases hs
  cases ps with
  | nil => exact absurd rfl hps
  | cons p ps =>
    refine ⟨{ s with cb := .activate (p :: ps), early := s.early || !(s.pc = .back false || s.pc = .consuming), crash := some .stores }, ?_, rfl⟩
    simp [run, step, callback, hj, hs, hc, hcb, hw]

example : ((run true S.init [.main true, .main true, .main true, .main true]).any fun s =>
    decide (s.joined = true ∧ s.stores = false ∧ s.crash = none ∧ s.cb = .none)) = true := by decide +kernel

/-- Violated: a client that calls back after the state store consumer is stored and before `NewEventSource` has stored the consumer: the goroutine of
the worker asks the consumer, which is nil, for its client. -/
theorem C107_violated_consumer {s : S} (h : Reach true s) (hp : s.pc = .check) (hj : s.joined = true) (hc : s.crash = none) (hcb : s.cb = .none)
    (hw : s.workers = []) (p : Nat) :
    ∃ s', run true s [.assigned [p], .callback, .callback, .work 0] = some s' ∧ s'.crash = some .consumer := by
  have I := inv_reach h
  have hne : s.pc ≠ .back true := by rw [hp]; simp
  have hs : s.stores = true := by rw [I.stores hne, hp]; rfl
  have hpool : s.pool = true := by rw [I.pool hne, hp]; rfl
  have hcons : s.consumer = false := by rw [I.consumer hne, hp]; rfl
  refine ⟨{ s with cb := .activate [], early := true, workers := [⟨p, s.ijs, false⟩], crash := some .consumer }, ?_, rfl⟩
  simp [run, step, callback, hj, hs, hc, hcb, hw, hpool, hcons, hp]

example : ((run true S.init [.main true, .main true, .main true, .main true, .main true, .main true]).any fun s =>
    decide (s.pc = .check ∧ s.joined = true ∧ s.crash = none ∧ s.cb = .none ∧ s.workers = [])) = true := by decide +kernel

/-- A worker has the interjections that were scheduled before it was made: a first part of those that there are. They stay as they are: what a run
schedules later is not added to a worker that exists. -/
theorem C107_interjections {incr : Bool} {s : S} (h : Reach incr s) :
    (∀ w ∈ s.workers, w.ijs <+: s.ijs) ∧
    ∀ (as : List Act) (s' : S), run incr s as = some s' → ∀ (i : Nat) (w : Worker), s.workers[i]? = some w →
      ∃ w' : Worker, s'.workers[i]? = some w' ∧ w'.part = w.part ∧ w'.ijs = w.ijs :=
  ⟨(inv_reach h).prefixes, fun as _ hr => (ijs_run as hr).1⟩

/-- Partial: a worker that is made after `ConsumeEvents` was called has all interjections. Missing: workers that are made before, see
`C107_violated_interjection`. -/
theorem C107_all_interjections_partial {incr : Bool} {s s' : S} {as : List Act} (hp : s.pc = .consuming) (hr : run incr s as = some s')
    {i : Nat} {w : Worker} (hi : s.workers.length ≤ i) (hw : s'.workers[i]? = some w) : w.ijs = s'.ijs := by
  obtain ⟨_, _, h3⟩ := ijs_run as hr
  obtain ⟨_, h4, h5⟩ := h3 hp
  rw [h5 i w hi hw, h4]

example : ((run true S.init (boot ++ [.schedule 5, .schedule 6, .consume, .assigned [3, 4], .callback, .callback, .callback, .callback, .callback,
      .callback, .work 1])).any fun s =>
    decide (s.workers = [⟨3, [5, 6], false⟩, ⟨4, [5, 6], true⟩] ∧ s.crash = none ∧ s.early = false ∧ s.cb = .none)) = true := by decide +kernel

/-- Violated: an application that schedules its interjection as documented, between `NewEventSource` and `ConsumeEvents`: the partition that was
assigned in between works without it, for ever. -/
theorem C107_violated_interjection :
    ∃ s, run true S.init (boot ++ [.assigned [3], .callback, .callback, .callback, .callback, .schedule 5, .consume, .work 0]) = some s ∧
      s.pc = .consuming ∧ s.crash = none ∧ s.early = false ∧ s.ijs = [5] ∧
      ∀ as s', run true s as = some s' → ∃ w : Worker, s'.workers[0]? = some w ∧ w.part = 3 ∧ w.ijs = [] ∧ s'.ijs = [5] := by
  refine ⟨_, rfl, by decide +kernel, by decide +kernel, by decide +kernel, by decide +kernel, ?_⟩
  intro as s' hr
  obtain ⟨h1, _, h3⟩ := ijs_run as hr
  obtain ⟨w, a1, a2, a3⟩ := h1 0 ⟨3, [], true⟩ (by decide +kernel)
  exact ⟨w, a1, a2, a3, (h3 (by decide +kernel)).2.1⟩

/-- Violated: when the client cannot be made, the producer pool (its clients and its two goroutines) and the state store consumer have been started all
the same; `NewEventSource` returns an error and an event source without a consumer, and nothing can stop them: no step is left. -/
theorem C107_violated_leak {incr : Bool} {s : S} (h : Reach incr s) (hp : s.pc = .client) (hc : s.crash = none) :
    ∃ s', run incr s [.main false, .main true, .main true, .main true, .main true] = some s' ∧ s'.pc = .back true ∧ s'.pool = true ∧
      s'.stores = true ∧ s'.consumer = false ∧ ∀ a, step incr s' a = none := by
  have I := inv_reach h
  have hq := I.quiet (I.early (by rw [hp]; simp [rank])).1
  refine ⟨{ s with pc := .back true, failed := true, joined := false, pool := true, balancer := incr, stores := true, consumer := false }, ?_,
    rfl, rfl, rfl, rfl, ?_⟩
  · simp [run, step, main, hp, hc]
  · intro a
    cases a <;> simp [step, main, callback, hc, hq.1, hq.2]

example : ((run true S.init [.main true, .main true]).any fun s => decide (s.pc = .client ∧ s.crash = none)) = true := by decide +kernel

/-- When `CreateSource` fails, nothing has been started. -/
theorem C107_source_failed (incr : Bool) :
    ∃ s, step incr S.init (.main false) = some s ∧ s.pc = .back true ∧ s.pool = false ∧ s.stores = false ∧ s.joined = false ∧
      ∀ a, step incr s a = none := by
  refine ⟨_, rfl, rfl, rfl, rfl, rfl, ?_⟩
  intro a
  cases a <;> simp [step, main, callback, S.init]

end Verif.Boot
