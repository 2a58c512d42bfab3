import Verif.Keyed.Finish
/-
C112: what an application computes for a key does not depend on whether its records go through an `AsyncJobScheduler`.
-/
namespace Verif.Props.Keyed
open Verif.Keyed

variable {K σ X : Type} [DecidableEq K]

/-- **C112** (what is missing: handlers must not be called after the scheduler has ended, see `C112_violated_stop`). In every execution, with any number of workers, goroutines of the scheduler and crashes: if all records of a key go
through the scheduler or none does, what readers see for a key is exactly what one process produces that handles the records of the key below the watermark one after the other. -/
theorem C112_visible_partial (c : Cfg K σ X) (hu : Uniform c) (w : W K σ) (h : Reach c Open w) (p : Nat) (k : K) : ofKey k (w.vis p) = outsAt c p k (w.wm p) := by
  obtain ⟨sel, hs⟩ := sel_of_uniform hu
  exact (inv_reach hs h).vis p k

/-- **C112** (what is missing: as before). The store has for every key the state after the first records of the key, at least those below the watermark: a finalizer never sees effects of later records of its key, nor misses those
of earlier ones. -/
theorem C112_store_partial (c : Cfg K σ X) (hu : Uniform c) (w : W K σ) (h : Reach c Open w) (p : Nat) (k : K) : ∃ o, w.wm p ≤ o ∧ w.st p k = stateAt c p k o := by
  obtain ⟨sel, hs⟩ := sel_of_uniform hu
  obtain ⟨o, h1, -, h2⟩ := store_at hs h p k
  exact ⟨o, h1, h2⟩

/-- **C112** (what is missing: as before). Once all events of the key are completed, the store has for it the state after all of them. -/
theorem C112_store_completed_partial (c : Cfg K σ X) (hu : Uniform c) (w : W K σ) (h : Reach c Open w) (p : Nat) (k : K)
    (hd : ∀ y ∈ w.ev p, y.key = k → y ∈ (w.prod p).map Prod.fst) : w.st p k = stateAt c p k (w.base p + (w.ev p).length) := by
  obtain ⟨sel, hs⟩ := sel_of_uniform hu
  exact store_done hs h p k hd

/-- **C112** (what is missing: as before). Two versions of an application, of which one gives other keys to the scheduler than the other: wherever both have come equally far, readers see the same for every key. -/
theorem C112_same_with_and_without_partial (c c' : Cfg K σ X) (ha : c.app = c'.app) (hsrc : c.src = c'.src) (hu : Uniform c) (hu' : Uniform c') (w w' : W K σ)
    (h : Reach c Open w) (h' : Reach c' Open w') (p : Nat) (hp : w.wm p = w'.wm p) (k : K) : ofKey k (w.vis p) = ofKey k (w'.vis p) := by
  rw [C112_visible_partial c hu w h, C112_visible_partial c' hu' w' h', hp]
  unfold outsAt
  rw [ha, hsrc]

/-- **C112** (what is missing: as before). From every such state the result of a partition can still be completed: then readers see for every key what one process makes of all its records. -/
theorem C112_can_be_completed_partial (c : Cfg K σ X) (hu : Uniform c) (hc : 1 ≤ c.sched.concurrency) (ha : 1 ≤ c.asyncSize) (w : W K σ) (h : Reach c Open w) (p : Nat) (hp : c.sched.concurrency ≤ p) :
    ∃ w', From c Open w w' ∧ w'.wm p = (c.src p).length ∧ ∀ k, ofKey k (w'.vis p) = (Exact.handleAll c.app (valsOf k (c.src p))).2 := by
  obtain ⟨sel, hs⟩ := sel_of_uniform hu
  obtain ⟨w', h1, h2⟩ := can_finish hc ha hp (wm_le hs h p)
  refine ⟨w', h1, h2, fun k => ?_⟩
  rw [C112_visible_partial c hu w' (h.trans h1), h2]
  unfold outsAt
  rw [List.take_length]

/-- An application that counts: it produces the number of records of the key so far, times ten, plus the record. -/
def count : Exact.App Nat Nat := ⟨0, fun s x => [10 * (s + 1) + x], fun s _ => s + 1⟩

/-- Two records of one key and one of another, all scheduled. -/
def exC : Cfg Nat Nat Nat := ⟨⟨1, 2, 10⟩, 100, count, fun p => if p = 1 then [(7, 1), (7, 2), (8, 3)] else [], fun _ _ => true⟩

/-- A scheduled record on its way through the scheduler, if no other is there. -/
def through : List (Act Nat) :=
  [.inner (.lock 1 none), .inner (.send 1), .inner (.eval 0), .inner (.recv 0), .inner (.peek 0), .inner (.finish 0), .inner (.complete 0), .inner (.release 0), .inner (.signal 0)]

theorem reach_run {c : Cfg Nat Nat Nat} {P : W Nat Nat → Act Nat → Prop} : ∀ (xs : List (Act Nat)) {w w' : W Nat Nat}, Reach c P w → run c w xs = some w' →
    (∀ n w1 x, run c w (xs.take n) = some w1 → xs[n]? = some x → P w1 x) → Reach c P w' := by
  intro xs
  induction xs with
  | nil => intro w w' h hr _; cases hr; exact h
  | cons x xs ih =>
    intro w w' h hr hp
    simp only [run, Option.bind_eq_some_iff] at hr
    obtain ⟨w1, h1, h2⟩ := hr
    refine ih (.step x h (hp 0 w x rfl rfl) h1) h2 ?_
    intro n w2 y h3 h4
    exact hp (n + 1) w2 y (by simp [run, h1, h3]) (by simpa using h4)

theorem reach_all {c : Cfg Nat Nat Nat} (xs : List (Act Nat)) {w w' : W Nat Nat} (h : Reach c (fun _ _ => True) w) (hr : run c w xs = some w') : Reach c (fun _ _ => True) w' :=
  reach_run xs h hr fun _ _ _ _ _ => trivial

/-- Only `close` ends the scheduler: without it, steps are `Open`. -/
def openRun (c : Cfg Nat Nat Nat) (w : W Nat Nat) : List (Act Nat) → Bool
  | [] => true
  | x :: xs =>
    (match x with
      | .handle _ => !w.sch.closed
      | _ => true) &&
    match step c w x with
    | some w' => openRun c w' xs
    | none => true

theorem reach_open {c : Cfg Nat Nat Nat} : ∀ (xs : List (Act Nat)) {w w' : W Nat Nat}, Reach c Open w → run c w xs = some w' → openRun c w xs = true → Reach c Open w' := by
  intro xs
  induction xs with
  | nil => intro w w' h hr _; cases hr; exact h
  | cons x xs ih =>
    intro w w' h hr ho
    simp only [run, Option.bind_eq_some_iff] at hr
    obtain ⟨w1, h1, h2⟩ := hr
    simp only [openRun, h1, Bool.and_eq_true] at ho
    refine ih (.step x h ?_ h1) h2 ho.2
    cases x <;> first | trivial | simpa [Open] using ho.1

/-- The hypotheses of `C112_visible_partial`: the first record is committed, the second is lost with the process and done again, the third is completed but not committed. -/
def exRun : List (Act Nat) :=
  [.arrive 1, .handle 1] ++ through ++ [.job 1, .commit 1 1, .arrive 1, .handle 1] ++
  [.inner (.lock 1 none), .crash, .arrive 1, .handle 1] ++ through ++ [.job 1, .commit 1 1]

example : ∃ w, Reach exC Open w ∧ Uniform exC ∧ w.vis 1 = [(7, 11), (7, 22)] ∧ w.wm 1 = 2 ∧ w.st 1 7 = 2 ∧ outsAt exC 1 7 2 = [11, 22] := by
  have h : ∃ w, run exC (init exC) exRun = some w ∧ w.vis 1 = [(7, 11), (7, 22)] ∧ w.wm 1 = 2 ∧ w.st 1 7 = 2 := ⟨_, rfl, by decide +kernel, by decide +kernel, by decide +kernel⟩
  obtain ⟨w, h1, h2, h3, h4⟩ := h
  exact ⟨w, reach_open exRun .init h1 (by decide +kernel), fun _ _ _ => rfl, h2, h3, h4, by decide +kernel⟩

/-- The hypotheses of `C112_same_with_and_without_partial` and `C112_can_be_completed_partial`: the same application with key 8 handled directly; the third record is finished before the others, and the first two are done already. -/
def halfC : Cfg Nat Nat Nat := { exC with async := fun k _ => decide (k = 7) }

example : ∃ w w', Reach exC Open w ∧ Reach halfC Open w' ∧ Uniform halfC ∧ w.wm 1 = 2 ∧ w'.wm 1 = 2 ∧ (w'.prod 1).map (fun e => e.1.key) = [7, 8, 7] ∧ w'.vis 1 = [(7, 11), (7, 22)] ∧
    halfC.app = exC.app ∧ halfC.src = exC.src ∧ 1 ≤ halfC.sched.concurrency ∧ 1 ≤ halfC.asyncSize ∧ halfC.sched.concurrency ≤ 1 := by
  have h : ∃ w, run exC (init exC) exRun = some w ∧ w.wm 1 = 2 := ⟨_, rfl, by decide +kernel⟩
  have h' : ∃ w, run halfC (init halfC) ([.arrive 1, .arrive 1, .arrive 1, .handle 1] ++ through ++ [.job 1, .handle 1, .inner (.lock 1 none), .inner (.send 1), .handle 1] ++ through.drop 2 ++ [.job 1, .commit 1 2]) = some w ∧
      w.wm 1 = 2 ∧ (w.prod 1).map (fun e => e.1.key) = [7, 8, 7] ∧ w.vis 1 = [(7, 11), (7, 22)] := ⟨_, rfl, by decide +kernel, by decide +kernel, by decide +kernel⟩
  obtain ⟨w, h1, h2⟩ := h
  obtain ⟨w', h3, h4, h5, h6⟩ := h'
  exact ⟨w, w', reach_open _ .init h1 (by decide +kernel), reach_open _ .init h3 (by decide +kernel), fun _ _ _ => rfl, h2, h4, h5, h6, rfl, rfl, by decide, by decide, by decide⟩

/-- **C112, violated** (`streams/event_source.go:282-289`, `streams/async_scheduler.go:232-234`). `StopNow` ends the scheduler at once, while workers still handle events and transactions still commit: `Schedule` says `Complete`, and
the event is committed although nothing was done for it. -/
theorem C112_violated_stop : ∃ w, Reach exC (fun _ _ => True) w ∧ Uniform exC ∧ w.wm 1 = 1 ∧ ofKey 7 (w.vis 1) = [] ∧ outsAt exC 1 7 (w.wm 1) = [11] := by
  have h : ∃ w, run exC (init exC) [.arrive 1, .inner .close, .handle 1, .commit 1 1] = some w ∧ w.wm 1 = 1 ∧ ofKey 7 (w.vis 1) = [] := ⟨_, rfl, by decide +kernel, by decide +kernel⟩
  obtain ⟨w, h1, h2, h3⟩ := h
  exact ⟨w, reach_all _ .init h1, fun _ _ _ => rfl, h2, h3, by rw [h2]; decide +kernel⟩

/-- The first record is scheduled, the second of the same key is not. -/
def mixC : Cfg Nat Nat Nat := { exC with async := fun _ x => decide (x = 1) }

/-- **C112**. That all records of a key are treated alike is needed: otherwise a later record can be finished first, although the scheduler never ended, no process crashed and all was committed. -/
theorem C112_needs_uniform : ∃ w, Reach mixC Open w ∧ w.wm 1 = 2 ∧ ofKey 7 (w.vis 1) = [12, 21] ∧ outsAt mixC 1 7 2 = [11, 22] := by
  have h : ∃ w, run mixC (init mixC) ([.arrive 1, .arrive 1, .handle 1, .inner (.lock 1 none), .inner (.send 1), .handle 1] ++ through.drop 2 ++ [.job 1, .commit 1 2]) = some w ∧
      w.wm 1 = 2 ∧ ofKey 7 (w.vis 1) = [12, 21] := ⟨_, rfl, by decide +kernel, by decide +kernel⟩
  obtain ⟨w, h1, h2, h3⟩ := h
  exact ⟨w, reach_open _ .init h1 (by decide +kernel), h2, h3, by decide +kernel⟩

end Verif.Props.Keyed
