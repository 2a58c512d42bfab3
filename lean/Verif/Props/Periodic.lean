import Verif.Periodic.Model
import Mathlib.Tactic.Common
import Mathlib.Tactic.Positivity
/-
Property C59: periodic interjections (`streams/interjection.go`, `streams/partition_worker.go`).
-/
namespace Verif.Periodic
set_option linter.unusedSimpArgs false
set_option linter.unreachableTactic false
set_option linter.unusedTactic false

/-- C59. The delay differs from the interval by at most the jitter, for every interval and jitter (of either sign) and all random draws. -/
theorem C59_delay (every jitter : Int) (k n : Nat) (hk : k < 2 ^ 53) : (timerDuration every jitter k n - every).natAbs ≤ jitter.natAbs := by
  have h1 : (((k : Int) * jitter).tdiv (2 ^ 53)).natAbs ≤ jitter.natAbs := by
    rw [Int.natAbs_tdiv, Int.natAbs_mul]
    apply Nat.div_le_of_le_mul
    have : (k : Int).natAbs ≤ ((2 : Int) ^ 53).natAbs := by simp; omega
    exact Nat.mul_le_mul_right _ this
  unfold timerDuration
  generalize ((k : Int) * jitter).tdiv (2 ^ 53) = q at h1
  split
  · omega
  · dsimp only
    split <;> omega

/-- C59. With a jitter, both sides of the interval occur, up to the whole jitter (for a draw next to 1) less one. -/
theorem C59_delay_reached (every jitter : Int) (h : 0 < jitter) (hj : jitter < 2 ^ 53) :
    timerDuration every jitter (2 ^ 53 - 1) 0 = every + (jitter - 1) ∧ timerDuration every jitter (2 ^ 53 - 1) 9 = every - (jitter - 1) := by
  have : ((((2 ^ 53 - 1 : Nat)) : Int) * jitter).tdiv (2 ^ 53) = jitter - 1 := by
    rw [Int.tdiv_eq_ediv_of_nonneg (by positivity)]
    omega
  unfold timerDuration
  rw [this]
  have h0 : jitter ≠ 0 := by omega
  simp [h0]

/-- Interval 1 s, jitter 100 ms, draws 1/4 and 3/4: 1025 ms and 925 ms. -/
example : timerDuration 1000000000 100000000 (2 ^ 51) 3 = 1025000000 ∧ timerDuration 1000000000 100000000 (3 * 2 ^ 51) 7 = 925000000 := by decide

/-- The activations that are under way: timers, timer functions, in the channel, in the worker, pending. -/
def Spec.inFlight (s : Ij) : Nat := s.timers + s.pushing + s.chan.count true + s.sched + s.pend

/-- The next call is on its way. -/
def Spec.next (s : Ij) : Nat := s.timers + s.pushing + s.chan.count true + s.sched

structure Good (s : Ij) : Prop where
  one : Spec.inFlight s ≤ 1
  fresh : s.started = false → Spec.inFlight s = 0 ∧ s.fired = 0
  cap : s.chan.length ≤ 1
  lp : s.loop = false → s.revoked = true
  cn : s.cancelled = true → s.revoked = true
  sg : s.signal = true → s.revoked = true

theorem good_init : Good Ij.init := by constructor <;> simp [Ij.init, Spec.inFlight]

theorem good_step {s s' : Ij} {l : Label} (G : Good s) (h : step s l = some s') : Good s' := by
  obtain ⟨h1, h2, h3, h4, h5, h6⟩ := G
  have started : 0 < Spec.inFlight s → s.started = true := by
    intro h
    cases hs : s.started with
    | true => rfl
    | false => have := (h2 hs).1; omega
  unfold Spec.inFlight at *
  cases l with
  | start =>
    simp only [step] at h
    split at h
    · simp at h
    · rename_i hs
      simp only [Option.some.injEq] at h; subst h
      have := (h2 (by simpa using hs)).1
      exact ⟨by simp only [Spec.inFlight, Ij.tick]; omega, by simp, h3, h4, h5, h6⟩
  | fire =>
    simp only [step] at h
    split at h
    · simp only [Option.some.injEq] at h; subst h
      exact ⟨by simp only [Spec.inFlight]; omega, fun hs => by have := started (by omega); simp_all, h3, h4, h5, h6⟩
    · simp at h
  | push =>
    simp only [step] at h
    split at h
    · simp only [Option.some.injEq] at h; subst h
      exact ⟨by simp only [Spec.inFlight, List.count_append, List.count_singleton]; simp; omega, fun hs => by have := started (by omega); simp_all,
        by simp only [List.length_append, List.length_singleton]; omega, h4, h5, h6⟩
    · simp at h
  | quit =>
    simp only [step] at h
    split at h
    · simp only [Option.some.injEq] at h; subst h
      exact ⟨by simp only [Spec.inFlight]; omega, fun hs => by have := started (by omega); simp_all, h3, h4, h5, by simp⟩
    · simp at h
  | other =>
    simp only [step] at h
    split at h
    · simp only [Option.some.injEq] at h; subst h
      refine ⟨by simp only [Spec.inFlight, List.count_append, List.count_singleton]; simpa using h1, fun hs => ?_, by simp only [List.length_append, List.length_singleton]; omega, h4, h5, h6⟩
      have := h2 hs
      simp only [Spec.inFlight, List.count_append, List.count_singleton]; simpa using this
    · simp at h
  | take =>
    simp only [step] at h
    split at h
    · split at h
      · rename_i rest hc
        simp only [Option.some.injEq] at h; subst h
        rw [hc] at h1 h2 h3 started
        simp only [List.count_cons, beq_self_eq_true, if_true, List.length_cons] at h1 h2 h3 started
        refine ⟨?_, fun hs => ?_, by dsimp only; omega, h4, h5, h6⟩
        · simp only [Spec.inFlight]; split <;> omega
        · have := started (by omega); simp_all
      · rename_i rest hc
        simp only [Option.some.injEq] at h; subst h
        rw [hc] at h1 h2 h3
        simp only [List.count_cons, List.length_cons] at h1 h2 h3
        simp at h1 h2 h3
        refine ⟨by simp only [Spec.inFlight]; simpa [h3] using h1, fun hs => by simp only [Spec.inFlight]; have := h2 hs; simp_all, by simp [h3], h4, h5, h6⟩
      · simp at h
    · simp at h
  | revoke =>
    simp only [step, Option.some.injEq] at h; subst h
    exact ⟨h1, h2, h3, fun _ => rfl, fun _ => rfl, fun _ => rfl⟩
  | stop =>
    simp only [step] at h
    split at h
    · rename_i hr
      simp only [Option.some.injEq] at h; subst h
      exact ⟨h1, h2, h3, fun _ => hr.1, h5, h6⟩
    · simp at h
  | cancel =>
    simp only [step] at h
    split at h
    · rename_i hr
      simp only [Option.some.injEq] at h; subst h
      exact ⟨by simp only [Spec.inFlight]; omega, fun hs => by simp_all, h3, h4, fun _ => h4 hr.1, fun _ => h4 hr.1⟩
    · simp at h
  | handle o =>
    simp only [step] at h
    split at h
    · rename_i hpos
      have hst := started (by omega)
      split at h
      · split at h
        · simp only [Option.some.injEq] at h; subst h
          exact ⟨by simp only [Spec.inFlight]; omega, fun hs => by simp_all, h3, h4, h5, h6⟩
        · simp at h
      · simp only [Option.some.injEq] at h; subst h
        exact ⟨by simp only [Spec.inFlight, Ij.tick]; omega, fun hs => by simp_all [Ij.tick], h3, h4, h5, h6⟩
      · simp only [Option.some.injEq] at h; subst h
        exact ⟨by simp only [Spec.inFlight]; omega, fun hs => by simp_all, h3, h4, h5, h6⟩
    · simp at h
  | async =>
    simp only [step] at h
    split at h
    · simp only [Option.some.injEq] at h; subst h
      exact ⟨by simp only [Spec.inFlight]; omega, fun hs => by have := started (by omega); simp_all, h3, h4, h5, h6⟩
    · simp at h

theorem good_run {s s' : Ij} {ls : List Label} (G : Good s) (h : run s ls = some s') : Good s' := by
  induction ls generalizing s with
  | nil => simp only [run, Option.some.injEq] at h; subst h; exact G
  | cons l ls ih =>
    simp only [run, Option.bind_eq_some_iff] at h
    obtain ⟨s1, h1, h2⟩ := h
    exact ih (good_step G h1) h2

/-- C59. At no time is more than one activation of the interjection under way in a partition, so that its calls never overlap and do not pile up. -/
theorem C59_single {ls : List Label} {s : Ij} (h : run Ij.init ls = some s) : Spec.inFlight s ≤ 1 := (good_run good_init h).one

/-- As long as nothing was incomplete, and the partition is not revoked, the next activation is on its way. -/
theorem next_step {s s' : Ij} {l : Label} (G : Good s) (hr : s'.revoked = false) (hl : l ≠ .handle .incomplete)
    (N : s.started = true → Spec.next s = 1) (h : step s l = some s') : s'.started = true → Spec.next s' = 1 := by
  obtain ⟨h1, h2, h3, h4, h5, h6⟩ := G
  unfold Spec.inFlight at *
  unfold Spec.next at *
  cases l with
  | start =>
    simp only [step] at h
    split at h
    · simp at h
    · rename_i hs
      simp only [Option.some.injEq] at h; subst h
      have := (h2 (by simpa using hs)).1
      intro _; simp only [Ij.tick]; omega
  | fire =>
    simp only [step] at h
    split at h
    · simp only [Option.some.injEq] at h; subst h; intro hs; have := N hs; dsimp only; omega
    · simp at h
  | push =>
    simp only [step] at h
    split at h
    · simp only [Option.some.injEq] at h; subst h; intro hs; have := N hs
      simp only [List.count_append, List.count_singleton]; simp; omega
    · simp at h
  | quit =>
    simp only [step] at h
    split at h
    · rename_i hq
      simp only [Option.some.injEq] at h; subst h
      have := h6 hq.2; simp_all
    · simp at h
  | other =>
    simp only [step] at h
    split at h
    · simp only [Option.some.injEq] at h; subst h; intro hs; have := N hs
      simp only [List.count_append, List.count_singleton]; simpa using this
    · simp at h
  | take =>
    simp only [step] at h
    split at h
    · split at h
      · rename_i rest hc
        simp only [Option.some.injEq] at h; subst h
        intro hs; have := N hs
        rw [hc] at this
        simp only [List.count_cons, beq_self_eq_true, if_true] at this
        dsimp only at hr ⊢
        rw [hr]; simp; omega
      · rename_i rest hc
        simp only [Option.some.injEq] at h; subst h
        intro hs; have := N hs
        rw [hc] at this
        simpa [List.count_cons] using this
      · simp at h
    · simp at h
  | revoke => simp only [step, Option.some.injEq] at h; subst h; simp at hr
  | stop =>
    simp only [step] at h
    split at h
    · simp only [Option.some.injEq] at h; subst h; exact N
    · simp at h
  | cancel =>
    simp only [step] at h
    split at h
    · rename_i hc
      simp only [Option.some.injEq] at h; subst h
      have := h4 hc.1; simp_all
    · simp at h
  | handle o =>
    simp only [step] at h
    split at h
    · split at h
      · split at h
        · rename_i hx
          simp only [Option.some.injEq] at h; subst h; simp_all
        · simp at h
      · simp only [Option.some.injEq] at h; subst h; intro hs; have := N hs; simp only [Ij.tick]; omega
      · exact absurd rfl hl
    · simp at h
  | async =>
    simp only [step] at h
    split at h
    · simp only [Option.some.injEq] at h; subst h; exact N
    · simp at h

theorem revoked_mono {s s' : Ij} {l : Label} (h : step s l = some s') (hr : s.revoked = true) : s'.revoked = true := by
  cases l <;> simp only [step] at h <;> (repeat' split at h) <;>
    first
    | (simp at h; done)
    | (simp only [Option.some.injEq] at h; subst h; first | exact hr | rfl)

theorem next_run {ls : List Label} {s s' : Ij} (G : Good s) (N : s.started = true → Spec.next s = 1) (h : run s ls = some s') (hr : s'.revoked = false)
    (hl : .handle .incomplete ∉ ls) : s'.started = true → Spec.next s' = 1 := by
  induction ls generalizing s with
  | nil => simp only [run, Option.some.injEq] at h; subst h; exact N
  | cons l ls ih =>
    simp only [run, Option.bind_eq_some_iff] at h
    obtain ⟨s1, h1, h2⟩ := h
    have hr1 : s1.revoked = false := by
      cases hx : s1.revoked with
      | false => rfl
      | true =>
        exfalso
        have : ∀ (ls : List Label) (a b : Ij), a.revoked = true → run a ls = some b → b.revoked = true := by
          intro ls
          induction ls with
          | nil => intro a b ha h; simp only [run, Option.some.injEq] at h; subst h; exact ha
          | cons l ls ih =>
            intro a b ha h
            simp only [run, Option.bind_eq_some_iff] at h
            obtain ⟨c, e1, e2⟩ := h
            exact ih c b (revoked_mono e1 ha) e2
        have := this ls s1 s' hx h2
        rw [hr] at this; cases this
    simp only [List.mem_cons, not_or] at hl
    exact ih (good_step G h1) (next_step G hr1 (fun e => hl.1 e.symm) N h1) h2 hl.2

/-- C59, in part: as long as every call returned `Complete` and the partition is not revoked, the interjection keeps firing: exactly one next activation is on its way,
and at most five steps of the timer, `pushRecords` and the worker lead to the next call. Missing: calls that complete asynchronously, see `C59_violated_async`. -/
theorem C59_keeps_firing_partial {ls : List Label} {s : Ij} (h : run Ij.init ls = some s) (hs : s.started = true) (hr : s.revoked = false)
    (hl : .handle .incomplete ∉ ls) :
    Spec.next s = 1 ∧ ∃ more s', more.length ≤ 5 ∧ (∀ l ∈ more, l = .fire ∨ l = .push ∨ l = .take ∨ l = .handle .complete) ∧
      run s more = some s' ∧ s'.fired = s.fired + 1 := by
  have G := good_run good_init h
  have N := next_run good_init (by simp [Ij.init]) h hr hl hs
  refine ⟨N, ?_⟩
  have hloop : s.loop = true := by
    cases hx : s.loop with
    | true => rfl
    | false => have := G.lp hx; rw [hr] at this; cases this
  -- from the worker
  have r1 : ∀ s : Ij, 0 < s.sched → ∃ s', run s [.handle .complete] = some s' ∧ s'.fired = s.fired + 1 := by
    intro s h; exact ⟨{ s.tick with sched := s.sched - 1, fired := s.fired + 1 }, by simp [run, step, h], rfl⟩
  -- from the channel
  have r2 : ∀ s : Ij, s.loop = true → s.revoked = false → s.chan = [true] → ∃ s', run s [.take, .handle .complete] = some s' ∧ s'.fired = s.fired + 1 := by
    intro s h1 h2 h3
    obtain ⟨s', a, b⟩ := r1 { s with chan := [], sched := s.sched + 1 } (by simp)
    have e : step s .take = some { s with chan := [], sched := s.sched + 1 } := by simp [step, h1, h2, h3]
    exact ⟨s', by simp only [run, e, Option.bind_some]; simpa only [run] using a, b⟩
  -- from the timer function with an empty channel
  have r3 : ∀ s : Ij, s.loop = true → s.revoked = false → s.chan = [] → 0 < s.pushing →
      ∃ s', run s [.push, .take, .handle .complete] = some s' ∧ s'.fired = s.fired + 1 := by
    intro s h1 h2 h3 h4
    obtain ⟨s', a, b⟩ := r2 { s with pushing := s.pushing - 1, chan := [true] } h1 h2 rfl
    have e : step s .push = some { s with pushing := s.pushing - 1, chan := [true] } := by simp [step, h3, h4]
    exact ⟨s', by simp only [run, e, Option.bind_some]; simpa only [run] using a, b⟩
  -- from the timer function
  have r4 : ∀ s : Ij, s.loop = true → s.revoked = false → s.chan.length ≤ 1 → s.chan.count true = 0 → 0 < s.pushing →
      ∃ more s', more.length ≤ 4 ∧ (∀ l ∈ more, l = .fire ∨ l = .push ∨ l = .take ∨ l = .handle .complete) ∧ run s more = some s' ∧ s'.fired = s.fired + 1 := by
    intro s h1 h2 h3 h4 h5
    match hc : s.chan with
    | [] =>
      obtain ⟨s', a, b⟩ := r3 s h1 h2 hc h5
      exact ⟨_, s', by simp, by simp, a, b⟩
    | [x] =>
      cases x with
      | true => rw [hc] at h4; simp at h4
      | false =>
        have e : step s .take = some { s with chan := [] } := by simp [step, h1, hc]
        obtain ⟨s', a, b⟩ := r3 { s with chan := [] } h1 h2 rfl h5
        exact ⟨.take :: [.push, .take, .handle .complete], s', by simp, by simp, by rw [run, e, Option.bind_some]; exact a, b⟩
    | _ :: _ :: _ => rw [hc] at h3; simp at h3
  have hcap := G.cap
  unfold Spec.next at N
  by_cases c1 : 0 < s.sched
  · obtain ⟨s', a, b⟩ := r1 s c1; exact ⟨_, s', by simp, by simp, a, b⟩
  · by_cases c2 : 0 < s.chan.count true
    · have : s.chan = [true] := by
        match hc : s.chan with
        | [] => rw [hc] at c2; simp at c2
        | [x] => cases x <;> simp_all
        | _ :: _ :: _ => rw [hc] at hcap; simp at hcap
      obtain ⟨s', a, b⟩ := r2 s hloop hr this
      exact ⟨_, s', by simp, by simp, a, b⟩
    · by_cases c3 : 0 < s.pushing
      · obtain ⟨more, s', a, b, c, d⟩ := r4 s hloop hr hcap (by omega) c3
        exact ⟨more, s', by omega, b, c, d⟩
      · have ht : 0 < s.timers := by omega
        have e : step s .fire = some { s with timers := s.timers - 1, pushing := s.pushing + 1 } := by simp [step, ht]
        obtain ⟨more, s', a, b, c, d⟩ := r4 { s with timers := s.timers - 1, pushing := s.pushing + 1 } hloop hr hcap (by dsimp only; omega) (by simp)
        refine ⟨.fire :: more, s', by simp; omega, ?_, by rw [run, e, Option.bind_some]; exact c, d⟩
        intro l hl
        rcases List.mem_cons.mp hl with rfl | hl
        · simp
        · exact b l hl

/-- Two calls, with an interjection of somebody else in the channel when the timer expires for the third time. -/
example : ∃ s, run Ij.init [.start, .fire, .push, .take, .handle .complete, .fire, .push, .take, .handle .complete, .other, .fire] = some s ∧
    s.started = true ∧ s.revoked = false ∧ s.fired = 2 ∧ s.pushing = 1 ∧ s.chan = [false] := ⟨_, rfl, by decide⟩

/-- The state after an activation that was not complete: nothing leads to another call. -/
theorem dead_step {s s' : Ij} {l : Label} (hs : s.started = true) (hn : Spec.next s = 0) (h : step s l = some s') :
    s'.started = true ∧ Spec.next s' = 0 ∧ s'.fired = s.fired := by
  unfold Spec.next at *
  cases l <;> simp only [step] at h <;> (repeat' split at h) <;>
    first
    | (simp at h; done)
    | (exfalso; omega)
    | (simp only [Option.some.injEq] at h; subst h
       first
       | (refine ⟨?_, ?_, ?_⟩ <;> first | exact hs | exact hn | rfl | (dsimp only; omega) | (simp_all; done))
       | (simp_all; done))

/-- C59 is violated: after a call that returned `Incomplete`, to be completed asynchronously, the interjection is never called again, whatever happens. -/
theorem C59_violated_async {ls : List Label} {s : Ij} (h : run Ij.init (ls ++ [.handle .incomplete]) = some s) (more : List Label) (s' : Ij)
    (h' : run s more = some s') : s'.fired = s.fired := by
  have split : ∀ (l1 : List Label) (a : Ij) (l2 : List Label) (b : Ij), run a (l1 ++ l2) = some b → ∃ c, run a l1 = some c ∧ run c l2 = some b := by
    intro l1
    induction l1 with
    | nil => intro a l2 b h; exact ⟨a, rfl, h⟩
    | cons l l1 ih =>
      intro a l2 b h
      simp only [List.cons_append, run, Option.bind_eq_some_iff] at h
      obtain ⟨c, e1, e2⟩ := h
      obtain ⟨d, e3, e4⟩ := ih c l2 b e2
      exact ⟨d, by simp [run, e1, e3], e4⟩
  obtain ⟨s0, e1, e2⟩ := split ls _ _ _ h
  have G := good_run good_init e1
  have hd : s.started = true ∧ Spec.next s = 0 := by
    simp only [run, step, Option.bind_eq_some_iff] at e2
    obtain ⟨c, e3, e4⟩ := e2
    split at e3
    · rename_i hpos
      simp only [Option.some.injEq] at e3 e4; subst e4; subst e3
      have h1 := G.one; have h2 := G.fresh
      unfold Spec.inFlight at h1 h2
      constructor
      · cases hx : s0.started with
        | true => rfl
        | false => have := (h2 hx).1; omega
      · simp only [Spec.next]; omega
    · simp at e3
  obtain ⟨hs, hn⟩ := hd
  clear h G e1 e2
  induction more generalizing s with
  | nil => simp only [run, Option.some.injEq] at h'; subst h'; rfl
  | cons l more ih =>
    simp only [run, Option.bind_eq_some_iff] at h'
    obtain ⟨c, e3, e4⟩ := h'
    obtain ⟨a1, a2, a3⟩ := dead_step hs hn e3
    rw [ih e4 a1 a2, a3]

example : ∃ s, run Ij.init ([.start, .fire, .push, .take, .handle .complete, .fire, .push, .take] ++ [.handle .incomplete]) = some s ∧ s.fired = 2 ∧
    s.pend = 1 ∧ s.revoked = false := ⟨_, rfl, by decide⟩

/-- C59. After the partition was revoked and `pushRecords` has ended, only an activation that was accepted before can still call the interjector: once at most. -/
theorem C59_stops {ls : List Label} {s : Ij} (h : run Ij.init ls = some s) (hl : s.loop = false) (more : List Label) (s' : Ij)
    (h' : run s more = some s') : s'.fired ≤ s.fired + s.sched ∧ s.sched ≤ 1 := by
  have h1 := (good_run good_init h).one
  unfold Spec.inFlight at h1
  refine ⟨?_, by omega⟩
  clear h h1
  have : s'.fired + s'.sched ≤ s.fired + s.sched := by
    induction more generalizing s with
    | nil => simp only [run, Option.some.injEq] at h'; subst h'; exact Nat.le_refl _
    | cons l more ih =>
      simp only [run, Option.bind_eq_some_iff] at h'
      obtain ⟨c, e3, e4⟩ := h'
      have : c.loop = false ∧ c.fired + c.sched ≤ s.fired + s.sched := by
        cases l <;> simp only [step] at e3 <;> (repeat' split at e3) <;>
          first
          | (simp at e3; done)
          | (simp_all; done)
          | (simp only [Option.some.injEq] at e3; subst e3; refine ⟨?_, ?_⟩ <;> first | exact hl | exact Nat.le_refl _ | (simp only [Ij.tick]; omega) | (simp_all; done))
      have := ih this.1 e4
      omega
  omega

theorem next_le_one {s : Ij} (G : Good s) : Spec.next s ≤ 1 := by
  have := G.one; unfold Spec.inFlight at this; unfold Spec.next; omega

/-- What holds of the signal: it is sent once, and it is there until it was needed. -/
theorem signal_step {s s' : Ij} {l : Label} (G : Good s) (h1 : s.cancelled = false → s.signal = false)
    (h2 : s.cancelled = true → s.started = true ∧ (s.signal = true ∨ Spec.next s = 0)) (h : step s l = some s') :
    (s'.cancelled = false → s'.signal = false) ∧ (s'.cancelled = true → s'.started = true ∧ (s'.signal = true ∨ Spec.next s' = 0)) := by
  have one := next_le_one G
  have dead := fun a b => dead_step (s := s) (s' := s') (l := l) a b h
  rcases Bool.eq_false_or_eq_true s.cancelled with hc | hc
  · obtain ⟨hs, hx⟩ := h2 hc
    rcases hx with hx | hx
    · unfold Spec.next at *
      clear dead
      cases l <;> simp only [step] at h <;> (repeat' split at h) <;>
        first
        | (simp at h; done)
        | (simp only [Option.some.injEq] at h; subst h
           first
           | (simp_all [Ij.tick]; done)
           | (simp_all [Ij.tick]; omega))
    · obtain ⟨a, b, -⟩ := dead hs hx
      refine ⟨fun hf => ?_, fun _ => ⟨a, .inr b⟩⟩
      exfalso
      clear dead
      cases l <;> simp only [step] at h <;> (repeat' split at h) <;>
        first
        | (simp at h; done)
        | (simp only [Option.some.injEq] at h; subst h; simp_all [Ij.tick]; done)
  · have hx := h1 hc
    clear dead
    cases l <;> simp only [step] at h <;> (repeat' split at h) <;>
      first
      | (simp at h; done)
      | (simp only [Option.some.injEq] at h; subst h; simp_all [Ij.tick]; done)

theorem signal_run {ls : List Label} {s : Ij} (h : run Ij.init ls = some s) :
    (s.cancelled = false → s.signal = false) ∧ (s.cancelled = true → s.started = true ∧ (s.signal = true ∨ Spec.next s = 0)) := by
  have : ∀ (ls : List Label) (a b : Ij), Good a → ((a.cancelled = false → a.signal = false) ∧ (a.cancelled = true → a.started = true ∧ (a.signal = true ∨ Spec.next a = 0))) →
      run a ls = some b → (b.cancelled = false → b.signal = false) ∧ (b.cancelled = true → b.started = true ∧ (b.signal = true ∨ Spec.next b = 0)) := by
    intro ls
    induction ls with
    | nil => intro a b _ ha h; simp only [run, Option.some.injEq] at h; subst h; exact ha
    | cons l ls ih =>
      intro a b G ha h
      simp only [run, Option.bind_eq_some_iff] at h
      obtain ⟨c, e1, e2⟩ := h
      exact ih c b (good_step G e1) (signal_step G ha.1 ha.2 e1) e2
  exact this ls _ _ good_init (by simp [Ij.init]) h

/-- C59. Cancelling leaves nothing behind: the signal always fits into its channel, so that `cancel` does not hold up the worker, and after it a timer function that
waits to hand its interjection over can leave, even one whose timer was armed after the cancellation. -/
theorem C59_no_leak {ls : List Label} {s : Ij} (h : run Ij.init ls = some s) :
    (∀ s', step s .cancel = some s' → s.signal = false ∧ s'.signal = true) ∧
    (s.cancelled = true → 0 < s.pushing → ∃ s', step s .quit = some s' ∧ s'.pushing = 0) := by
  obtain ⟨h1, h2⟩ := signal_run h
  refine ⟨fun s' hs => ?_, fun hc hp => ?_⟩
  · simp only [step] at hs
    split at hs
    · rename_i hc
      simp only [Option.some.injEq] at hs; subst hs
      exact ⟨h1 hc.2.2, rfl⟩
    · cases hs
  have one := (good_run good_init h).one
  unfold Spec.inFlight at one
  have hsig : s.signal = true := by
    rcases (h2 hc).2 with h | h
    · exact h
    · unfold Spec.next at h; omega
  exact ⟨_, by simp only [step]; rw [if_pos ⟨hp, hsig⟩], by dsimp only; omega⟩

/-- The worker handles an accepted activation after the cancellation and arms the timer again; the timer function finds the channel full, with nobody to empty it. -/
example : ∃ s, run Ij.init [.start, .fire, .push, .take, .revoke, .stop, .cancel, .handle .complete, .other, .fire] = some s ∧
    s.cancelled = true ∧ s.pushing = 1 ∧ s.chan = [false] ∧ s.loop = false := ⟨_, rfl, by decide⟩

end Verif.Periodic
