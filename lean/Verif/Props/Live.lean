import Verif.Live.Ends
import Verif.Live.Stuck
/-
Property C65: the partition workers (`streams/partition_worker.go`) and the pool of producers (`streams/eos_producer.go`).
-/
namespace Verif.Live
open Verif.Eos

/-- C65, partial: without interjections. If nothing can happen by itself any more, then nobody waits: every event that arrived was
completed, its transaction has ended, and no event is left with a worker, in the buffer or in the commit queue. -/
theorem C65_no_deadlock_partial (c : Cfg) (hn : 0 < c.pool.poolSize) (hp : 0 < c.pool.pending) (he : 0 < c.ecap) (s : Sys)
    (hr : Reach c s) (hq : ∀ l, internal c s l = true → step c s l = none) :
    (∀ e ∈ s.arrived, e.id ∈ s.pool.done ∧ ∃ g b, (e, g) ∈ s.pool.added ∧ (g, b) ∈ s.pool.ended) ∧
    s.buf = [] ∧ s.pool.cq = [] ∧ s.pool.fwd = .idle ∧ s.pool.com = .idle ∧ s.pend = [] ∧
    ∀ p, s.putting p = none ∧ s.evq p = [] ∧ s.ijq p = [] ∧ s.cur p = none := by
  have S := quiet_settled hn hp he (inv_reach hr) hq
  exact ⟨S.events, S.buf, S.cq, S.fwd, S.com, S.pend, S.workers⟩

/-- C65, partial: without interjections. Whatever the schedule, what happens by itself comes to an end, even if handlers produce
any number of records meanwhile. -/
theorem C65_terminates_partial (c : Cfg) (hn : 0 < c.pool.poolSize) (s : Sys) (hr : Reach c s) :
    ∃ N, ∀ n s', Calm c s n s' → n ≤ N := calm_bounded hn hr

/-- C65, partial: without interjections. From every state, every schedule that goes on as long as something can happen reaches a state
in which all events that have arrived were completed and committed. -/
theorem C65_completes_partial (c : Cfg) (hn : 0 < c.pool.poolSize) (hp : 0 < c.pool.pending) (he : 0 < c.ecap) (s : Sys) (hr : Reach c s) :
    ∃ N, ∀ n s', Calm c s n s' →
      n ≤ N ∧ ((∃ l s'', internal c s' l = true ∧ step c s' l = some s'') ∨
        ∀ e ∈ s'.arrived, e.id ∈ s'.pool.done ∧ ∃ g b, (e, g) ∈ s'.pool.added ∧ (g, b) ∈ s'.pool.ended) := by
  obtain ⟨N, hN⟩ := calm_bounded hn hr
  refine ⟨N, fun n s' h => ⟨hN n s' h, ?_⟩⟩
  by_cases hq : Quiet c s'
  · exact .inr (quiet_settled hn hp he (inv_reach (calm_reach hr h)) hq).events
  · left
    unfold Quiet at hq
    push Not at hq
    obtain ⟨l, h1, h2⟩ := hq
    obtain ⟨s2, hs⟩ := Option.ne_none_iff_exists'.1 h2
    exact ⟨l, s2, h1, hs⟩

/-! ### Examples and the violation -/

private theorem of_run {o : Option Sys} (P : Sys → Prop) [DecidablePred P] (h : (o.map fun s => decide (P s)) = some true) : ∃ s, o = some s ∧ P s := by
  cases o with
  | none => cases h
  | some s => exact ⟨s, rfl, by simpa using h⟩

private theorem reach_run {c : Cfg} {ls : List Label} {s s' : Sys} (hr : Reach c s) (ha : ∀ l ∈ ls, Allowed l) (h : run c s ls = some s') : Reach c s' := by
  induction ls generalizing s with
  | nil => cases h; exact hr
  | cons l ls ih =>
    simp only [run] at h
    cases hs : step c s l with
    | none => rw [hs] at h; cases h
    | some s1 => rw [hs] at h; exact ih (.step l hr (ha l (by simp)) hs) (fun x hx => ha x (by simp [hx])) h

/-- three producers, one pending transaction, batches of one or two events -/
private def cfg : Cfg := ⟨⟨3, 1, 1, 2⟩, 100⟩
private def ev (n : Nat) : Ev := ⟨n, 0, some n⟩
/-- an interjection of partition 0 -/
private def inter : Ev := ⟨9, 0, none⟩
/-- an event arrives, goes to the worker's channel and into a transaction -/
private def come (n : Nat) : List Label := [.arrive (ev n), .put 0, .forward, .pool .give, .pool .check]

/-- The states of the theorems above include one in which a transaction is being committed that waits for an event which the worker has
not looked at, another is queued, and the third is full. -/
example : ∃ s, Reach cfg s ∧ s.pool.fwd = .force ∧ s.pool.cq = [1] ∧ s.pool.com = .fin 0 [ev 0] false [] ∧
    s.evq 0 = [ev 0, ev 1, ev 2, ev 3] ∧ s.pool.done = [] := by
  obtain ⟨s, h, hs⟩ := of_run (fun s => s.pool.fwd = .force ∧ s.pool.cq = [1] ∧ s.pool.com = .fin 0 [ev 0] false [] ∧
      s.evq 0 = [ev 0, ev 1, ev 2, ev 3] ∧ s.pool.done = [])
    (o := run cfg (Sys.init cfg) (come 0 ++ [.pool .tryFlush, .pool .swapIn, .pool .take, .pool (.beginCommit [0]), .pool .wait] ++
      come 1 ++ [.pool .tryFlush, .pool .swapIn] ++ come 2 ++ [.pool .tryFlush] ++ come 3 ++ [.pool .tryFlush])) (by decide +kernel)
  refine ⟨s, reach_run .init ?_ h, hs⟩
  intro l hl
  simp only [come, List.cons_append, List.nil_append, List.mem_cons, List.not_mem_nil, or_false] at hl
  rcases hl with rfl | rfl | rfl | rfl | rfl | rfl | rfl | rfl | rfl | rfl | rfl | rfl | rfl | rfl | rfl | rfl | rfl | rfl | rfl | rfl | rfl | rfl |
    rfl | rfl | rfl | rfl | rfl | rfl | rfl <;> simp [Allowed, ev]

/-- C65 is violated by interjections. The `select` of `work` may take an interjection that the pool has not seen yet before the events
in front of it. If the pool's forwarding loop then waits for room in the commit queue (`streams/eos_producer.go:185`), the commit
waits for one of those events (341), and the worker waits for a producer for the interjection (`streams/partition_worker.go:293-300`).
Whatever happens next, as long as Kafka does not report a failure, the event is not completed and no transaction ends; only 30 s later
the transaction times out and the consumer is given up. -/
theorem C65_violated_interjection : ∃ ls s, run cfg (Sys.init cfg) ls = some s ∧ (∀ l ∈ ls, NoFail l) ∧ ev 0 ∈ s.arrived ∧
    ∀ s', Later cfg s s' → (ev 0).id ∉ s'.pool.done ∧ s'.pool.ended = [] ∧ s'.cur 0 = some inter ∧ s'.pool.asg inter.id = none := by
  obtain ⟨s, h, hs, h2⟩ := of_run (fun s => StuckAt cfg (ev 0) inter s ∧ s.pool.ended = [])
    (o := run cfg (Sys.init cfg) (come 0 ++ [.pool .tryFlush, .pool .swapIn, .pool .take, .pool (.beginCommit [0]), .pool .wait] ++
      come 1 ++ [.pool .tryFlush, .pool .swapIn] ++ come 2 ++ [.pool .tryFlush] ++ come 3 ++ [.pool .tryFlush] ++
      [.arrive inter, .put 0, .pickInter 0])) (by decide +kernel)
  have S := stuck_of (home_run (home_init _) h) hs
  rw [h2] at S
  refine ⟨_, s, h, ?_, S.arr, ?_⟩
  · intro l hl
    simp only [come, List.cons_append, List.nil_append, List.mem_cons, List.not_mem_nil, or_false] at hl
    rcases hl with rfl | rfl | rfl | rfl | rfl | rfl | rfl | rfl | rfl | rfl | rfl | rfl | rfl | rfl | rfl | rfl | rfl | rfl | rfl | rfl | rfl | rfl |
      rfl | rfl | rfl | rfl | rfl | rfl | rfl | rfl | rfl | rfl <;> simp [NoFail]
  · intro s' hl
    have S' := stuck_later S hl
    exact ⟨S'.nd, S'.en, S'.cur, S'.asg⟩

end Verif.Live
