import Verif.Stages.Finish
import Verif.Backlog.Stuck
/-
C113: several `AsyncJobScheduler`s one after the other (`docs/asyncprocessing.md`, examples 2 to 4).
-/
namespace Verif.Props.Stages
open Verif.Stages

variable {K σ X : Type} [DecidableEq K]

/-- **C113** (what is missing: handlers and finalizers must not be called after a scheduler has ended, see `C113_violated_stop`). In every execution, with any number of schedulers, workers, goroutines and crashes: the handler sees the
records of a key in order and without a gap, beginning where the process began; each processor takes them in the order in which they came to its scheduler; each finalizer gets them in the order in which they were processed. -/
theorem C113_in_sequence_partial (c : Cfg K σ X) (w : W K σ) (h : Reach c Open w) (p : Nat) (k : K) :
    calledAt w p k 0 <+: offsets c p k (w.base p) (w.base p + (w.ev p).length) ∧
    ∀ i, i < c.n k → processedBy w p k i <+: calledAt w p k i ∧ calledAt w p k (i + 1) <+: processedBy w p k i :=
  ⟨(ord_reach h).first p k, fun _ hi => ⟨(ord_reach h).processed p k hi, (ord_reach h).finalized p k hi⟩⟩

/-- **C113** (what is missing: as before). What a process has committed has been through every processor and every finalizer of its chain. -/
theorem C113_all_places_partial (c : Cfg K σ X) (w : W K σ) (h : Reach c Open w) (p : Nat) (k : K) :
    (∀ i, i ≤ c.n k → offsets c p k (w.base p) (w.wm p) <+: calledAt w p k i) ∧ ∀ i, i < c.n k → offsets c p k (w.base p) (w.wm p) <+: processedBy w p k i :=
  ⟨fun _ hi => (ord_reach h).passed_all h p k hi, fun _ hi => ((ord_reach h).passed_all h p k (i := _ + 1) hi).trans ((ord_reach h).finalized p k hi)⟩

/-- **C113** (what is missing: as before). If for every key the application works on the store and produces at one place of the chain only, as the documentation demands, what readers see for a key is exactly what one process produces
that takes the records of the key below the watermark one after the other through all places. -/
theorem C113_visible_partial (c : Cfg K σ X) (a : K → Nat) (ha : OnePlace c a) (w : W K σ) (h : Reach c Open w) (p : Nat) (k : K) : ofKey k (w.vis p) = outsAt c p k (w.wm p) :=
  (inv_reach ha h).vis p k

/-- **C113** (what is missing: as before). The store has for every key the state after the first records of the key, at least those below the watermark. -/
theorem C113_store_partial (c : Cfg K σ X) (a : K → Nat) (ha : OnePlace c a) (w : W K σ) (h : Reach c Open w) (p : Nat) (k : K) : ∃ o, w.wm p ≤ o ∧ w.st p k = stateAt c p k o :=
  store_at ha h p k

/-- **C113** (what is missing: as before). From every such state the result of a partition can still be completed: then readers see for every key what one process makes of all its records. -/
theorem C113_can_be_completed_partial (c : Cfg K σ X) (a : K → Nat) (ha : OnePlace c a) (has : 1 ≤ c.asyncSize) (w : W K σ) (h : Reach c Open w) (p : Nat)
    (hc : ∀ i, 1 ≤ (c.sched i).concurrency ∧ (c.sched i).concurrency ≤ p) :
    ∃ w', From c Open w w' ∧ w'.wm p = (c.src p).length ∧ ∀ k, ofKey k (w'.vis p) = (Exact.handleAll (whole c k) (valsOf k (c.src p))).2 := by
  obtain ⟨w', h1, h2⟩ := can_finish has hc (wm_le h p)
  refine ⟨w', h1, h2, fun k => ?_⟩
  rw [C113_visible_partial c a ha w' (h.trans h1), h2]
  unfold outsAt
  rw [List.take_length]

/-- Two schedulers, as in example 4 of the documentation; the last finalizer counts: it produces the number of records of the key so far, times ten, plus the record. -/
def exC : Cfg Nat Nat Nat :=
  { scheds := 2, sched := fun _ => ⟨1, 2, 10⟩, asyncSize := 100, src := fun p => if p = 1 then [(7, 1), (7, 2), (8, 3)] else [], n := fun _ => 2, s0 := 0
    handle := fun i s x => if i = 2 then [10 * (s + 1) + x] else [], apply := fun s _ => s + 1 }

theorem exC_one : OnePlace exC fun _ => 2 := by
  intro k
  refine ⟨Nat.le_refl _, ?_⟩
  intro i _ h2 s x
  simp [exC, h2]

/-- An event on its way through a scheduler, if no other is there. -/
def through (i : Nat) : List (Act Nat) :=
  [.inner i (.lock 1 none), .inner i (.send 1), .inner i (.eval 0), .inner i (.recv 0), .inner i (.peek 0), .inner i (.finish 0), .inner i (.complete 0), .inner i (.release 0), .inner i (.signal 0)]

theorem pass_open {c : Cfg Nat Nat Nat} {w w' : W Nat Nat} {i : Nat} {y : Scheduler.Job Nat} (h : pass c w i y = some w') (ho : ∀ j, (w.sch j).closed = false) : ∀ j, (w'.sch j).closed = false := by
  unfold pass at h
  split at h
  · split at h
    · cases h; exact ho
    · simp only [Option.map_eq_some_iff] at h
      obtain ⟨s, hs, rfl⟩ := h
      intro j
      show (Scheduler.upd w.sch i s j).closed = false
      by_cases hj : j = i
      · subst hj; rw [Keyed.upd_self, Backlog.step_closed hs (by simp)]; exact ho _
      · rw [Keyed.upd_other _ _ hj]; exact ho j
  · cases h; exact ho

theorem step_open {c : Cfg Nat Nat Nat} {w w' : W Nat Nat} {x : Act Nat} (h : step c w x = some w') (hx : ∀ i, x ≠ .inner i .close) (ho : ∀ j, (w.sch j).closed = false) : ∀ j, (w'.sch j).closed = false := by
  cases x with
  | arrive p =>
    simp only [step] at h
    split at h
    · split at h
      · cases h; exact ho
      · cases h
    · cases h
  | handle p =>
    simp only [step] at h
    split at h
    · split at h
      · exact pass_open h ho
      · cases h
    · cases h
  | job p =>
    simp only [step] at h
    split at h
    · split at h
      · exact pass_open h ho
      · cases h
    · cases h
  | commit p m =>
    simp only [step] at h
    split at h
    · cases h; exact ho
    · cases h
  | crash => cases h; intro j; simp [boot, Scheduler.init]
  | inner i l =>
    have key : ∀ s, Scheduler.step (w.sch i) l = some s → ∀ j, (Scheduler.upd w.sch i s j).closed = false := by
      intro s hs j
      by_cases hj : j = i
      · subst hj; rw [Keyed.upd_self, Backlog.step_closed hs (fun e => hx _ (by rw [e]))]; exact ho _
      · rw [Keyed.upd_other _ _ hj]; exact ho j
    cases l with
    | call y => simp [step] at h
    | complete t =>
      simp only [step] at h
      split at h
      · split at h
        · simp only [Option.map_eq_some_iff] at h
          obtain ⟨s, hs, rfl⟩ := h
          exact key s hs
        · cases h
      · cases h
    | _ =>
      simp only [step, Option.map_eq_some_iff] at h
      obtain ⟨s, hs, rfl⟩ := h
      exact key s hs

/-- No scheduler is ended. -/
def noClose (x : Act Nat) : Bool :=
  match x with
  | .inner _ .close => false
  | _ => true

theorem reach_open {c : Cfg Nat Nat Nat} : ∀ (xs : List (Act Nat)) {w w' : W Nat Nat}, Reach c Open w → (∀ j, (w.sch j).closed = false) → run c w xs = some w' → xs.all noClose = true → Reach c Open w' := by
  intro xs
  induction xs with
  | nil => intro w w' h _ hr _; cases hr; exact h
  | cons x xs ih =>
    intro w w' h ho hr hn
    simp only [run, Option.bind_eq_some_iff] at hr
    obtain ⟨w1, h1, h2⟩ := hr
    rw [List.all_cons, Bool.and_eq_true] at hn
    refine ih (.step x h ?_ h1) (step_open h1 ?_ ho) h2 hn.2
    · cases x <;> first | exact ho | trivial
    · intro i e; subst e; simp [noClose] at hn

theorem reach_init {c : Cfg Nat Nat Nat} (xs : List (Act Nat)) {w : W Nat Nat} (hr : run c (init c) xs = some w) (hn : xs.all noClose = true) : Reach c Open w :=
  reach_open xs .init (fun _ => rfl) hr hn

theorem reach_all {c : Cfg Nat Nat Nat} : ∀ (xs : List (Act Nat)) {w w' : W Nat Nat}, Reach c (fun _ _ => True) w → run c w xs = some w' → Reach c (fun _ _ => True) w' := by
  intro xs
  induction xs with
  | nil => intro w w' h hr; cases hr; exact h
  | cons x xs ih =>
    intro w w' h hr
    simp only [run, Option.bind_eq_some_iff] at hr
    obtain ⟨w1, h1, h2⟩ := hr
    exact ih (.step x h trivial h1) h2

/-- The hypotheses of the theorems above: the first record is committed; the second is in the second scheduler, the third in the first one when the process dies; then the second is done again. -/
def exRun : List (Act Nat) :=
  [.arrive 1, .handle 1] ++ through 0 ++ [.job 1] ++ through 1 ++ [.job 1, .commit 1 1, .arrive 1, .handle 1] ++ through 0 ++ [.job 1, .inner 1 (.lock 1 none), .inner 1 (.send 1), .arrive 1, .handle 1, .inner 0 (.lock 1 none), .crash] ++
  [.arrive 1, .handle 1] ++ through 0 ++ [.job 1] ++ through 1 ++ [.job 1, .commit 1 1]

example : ∃ w, Reach exC Open w ∧ OnePlace exC (fun _ => 2) ∧ w.base 1 = 1 ∧ w.wm 1 = 2 ∧ w.vis 1 = [(7, 11), (7, 22)] ∧ w.st 1 7 = 2 ∧ calledAt w 1 7 2 = [1] ∧ processedBy w 1 7 1 = [1] ∧ outsAt exC 1 7 2 = [11, 22] ∧
    1 ≤ exC.asyncSize ∧ ∀ i, 1 ≤ (exC.sched i).concurrency ∧ (exC.sched i).concurrency ≤ 1 := by
  have h : ∃ w, run exC (init exC) exRun = some w ∧ w.base 1 = 1 ∧ w.wm 1 = 2 ∧ w.vis 1 = [(7, 11), (7, 22)] ∧ w.st 1 7 = 2 ∧ calledAt w 1 7 2 = [1] ∧ processedBy w 1 7 1 = [1] :=
    ⟨_, rfl, by decide +kernel, by decide +kernel, by decide +kernel, by decide +kernel, by decide +kernel, by decide +kernel⟩
  obtain ⟨w, h1, h2, h3, h4, h5, h6, h7⟩ := h
  exact ⟨w, reach_init exRun h1 (by decide +kernel), exC_one, h2, h3, h4, h5, h6, h7, by decide +kernel, by decide, fun _ => ⟨Nat.le_refl _, Nat.le_refl _⟩⟩

/-- Two records of a key at once: the first is with the second processor while the second waits behind it, and the record of the other key has been through the first processor. -/
example : ∃ w, Reach exC Open w ∧ calledAt w 1 7 0 = [0, 1] ∧ processedBy w 1 7 0 = [0, 1] ∧ calledAt w 1 7 1 = [0, 1] ∧ processedBy w 1 7 1 = [0] ∧ calledAt w 1 7 2 = [] ∧ calledAt w 1 8 0 = [2] := by
  have h : ∃ w, run exC (init exC) ([.arrive 1, .arrive 1, .arrive 1, .handle 1] ++ through 0 ++ [.job 1, .inner 1 (.lock 1 none), .inner 1 (.send 1), .inner 1 (.eval 0), .inner 1 (.recv 0), .inner 1 (.peek 0), .handle 1] ++ through 0 ++
      [.job 1, .inner 1 (.lock 1 none), .handle 1]) = some w ∧
      calledAt w 1 7 0 = [0, 1] ∧ processedBy w 1 7 0 = [0, 1] ∧ calledAt w 1 7 1 = [0, 1] ∧ processedBy w 1 7 1 = [0] ∧ calledAt w 1 7 2 = [] ∧ calledAt w 1 8 0 = [2] :=
    ⟨_, rfl, by decide +kernel, by decide +kernel, by decide +kernel, by decide +kernel, by decide +kernel, by decide +kernel⟩
  obtain ⟨w, h1, h2⟩ := h
  exact ⟨w, reach_init _ h1 (by decide +kernel), h2⟩

/-- **C113, violated** (`streams/event_source.go:282-289`, `streams/async_scheduler.go:232-234`). `StopNow` ends the schedulers at once while workers still take finished jobs and transactions still commit: the `Schedule` of the next
stage says `Complete`, and the event is committed although the second processor never saw it. -/
theorem C113_violated_stop : ∃ w, Reach exC (fun _ _ => True) w ∧ OnePlace exC (fun _ => 2) ∧ w.wm 1 = 1 ∧ processedBy w 1 7 0 = [0] ∧ processedBy w 1 7 1 = [] ∧ offsets exC 1 7 (w.base 1) (w.wm 1) = [0] ∧
    ofKey 7 (w.vis 1) = [] ∧ outsAt exC 1 7 (w.wm 1) = [11] := by
  have h : ∃ w, run exC (init exC) ([.arrive 1, .handle 1] ++ through 0 ++ [.inner 0 .close, .inner 1 .close, .job 1, .commit 1 1]) = some w ∧ w.wm 1 = 1 ∧ w.base 1 = 0 ∧ processedBy w 1 7 0 = [0] ∧ processedBy w 1 7 1 = [] ∧
      ofKey 7 (w.vis 1) = [] := ⟨_, rfl, by decide +kernel, by decide +kernel, by decide +kernel, by decide +kernel, by decide +kernel⟩
  obtain ⟨w, h1, h2, h3, h4, h5, h6⟩ := h
  exact ⟨w, reach_all _ .init h1, exC_one, h2, h4, h5, by rw [h2, h3]; decide +kernel, h6, by rw [h2]; decide +kernel⟩

/-- The handler and the finalizer both work on the store. -/
def bothC : Cfg Nat Nat Nat :=
  { exC with
    scheds := 1, n := fun _ => 1, handle := fun i s x => [100 * i + 10 * (s + 1) + x] }

/-- **C113**. That the store is used at one place only is needed, although no scheduler ended and no process crashed: the handler has taken the next record of the key already when the finalizer is called for the first one. -/
theorem C113_needs_one_place : ∃ w, Reach bothC Open w ∧ w.wm 1 = 1 ∧ ofKey 7 (w.vis 1) = [11, 131] ∧ outsAt bothC 1 7 1 = [11, 121] := by
  have h : ∃ w, run bothC (init bothC) ([.arrive 1, .arrive 1, .handle 1, .inner 0 (.lock 1 none), .inner 0 (.send 1), .handle 1, .inner 0 (.lock 1 none)] ++ ((through 0).drop 2).take 5 ++ [.job 1, .commit 1 1]) = some w ∧
      w.wm 1 = 1 ∧ ofKey 7 (w.vis 1) = [11, 131] := ⟨_, rfl, by decide +kernel, by decide +kernel⟩
  obtain ⟨w, h1, h2, h3⟩ := h
  exact ⟨w, reach_init _ h1 (by decide +kernel), h2, h3, by decide +kernel⟩

end Verif.Props.Stages
