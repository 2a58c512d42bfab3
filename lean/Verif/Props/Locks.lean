import Verif.Locks.Stuck
/-
C81: the locks of a consumer (`workerMux`, `preppingMux`, `statusLock`, those of the stores and of their consumer) and the wait for forgotten preparations never block
each other for ever: whatever the goroutines are doing, one of them can go on until all are finished and all locks are free.

Proved for callbacks that do not interject. Violated otherwise: the callbacks for partitions run under `workerMux`, which `Interject` takes.
-/
namespace Verif.Locks

/-- **C81 (partial: callbacks do not interject).** As long as somebody has something left to do, somebody can go on. -/
theorem C81_no_deadlock_partial (s : St) (h : Reach Job.Quiet s) (hb : ¬ s.Idle) :
    ∃ who, s.prog who ≠ [] ∧ ∃ s', step s (.run who) = some s' := by
  obtain ⟨held, hi⟩ := inv_reach h
  obtain ⟨who, h1, h2⟩ := not_all_blocked hi hb
  exact ⟨who, h1, Option.ne_none_iff_exists'.1 h2⟩

/-- **C81 (partial: callbacks do not interject).** If nothing new begins, then in whatever order the goroutines go on, it takes exactly as many instructions as are left
until nobody can go on, and then everybody is finished and all locks are free. -/
theorem C81_ends_partial (s : St) (h : Reach Job.Quiet s) :
    (∀ whos s', goOn s whos = some s' → whos.length ≤ s.left) ∧
    (∀ whos s', goOn s whos = some s' → (∀ who, step s' (.run who) = none) →
      whos.length = s.left ∧ (∀ who, s'.prog who = []) ∧ ∀ l, s'.own l = none) ∧
    ∃ whos s', goOn s whos = some s' ∧ ∀ who, s'.prog who = [] := by
  refine ⟨fun whos s' hs => by have := left_goOn hs; omega, fun whos s' hs hn => ?_, ?_⟩
  · obtain ⟨held, hi⟩ := inv_reach (reach_goOn h hs)
    have hidle : s'.Idle := by
      by_contra hb
      obtain ⟨who, _, h2⟩ := not_all_blocked hi hb
      exact h2 (hn who)
    refine ⟨?_, hidle, own_of_idle hi hidle⟩
    have hl := left_goOn hs
    have h0 : s'.left = 0 := by
      have hg : s'.g = [] := hidle none
      have ht : ∀ t ∈ s'.ts, costs t.prog = 0 := fun t ht => by
        obtain ⟨n, hn⟩ := List.mem_iff_getElem?.1 ht
        have := hidle (some n)
        simp only [St.prog, hn, Option.map_some, Option.getD_some] at this
        rw [this]; rfl
      have hsum : (s'.ts.map fun t => costs t.prog).sum = 0 := by
        rw [List.sum_eq_zero_iff_forall_eq_nat]
        intro x hx
        obtain ⟨t, htm, rfl⟩ := List.mem_map.1 hx
        exact ht t htm
      rw [St.left, hg, hsum]; rfl
    omega
  · generalize hk : s.left = k
    induction k generalizing s with
    | zero => exact ⟨[], s, rfl, idle_of_left hk⟩
    | succ k ih =>
      by_cases hb : s.Idle
      · exact ⟨[], s, rfl, hb⟩
      · obtain ⟨who, _, s1, h1⟩ := C81_no_deadlock_partial s h hb
        have := left_run h1
        obtain ⟨whos, s', hs, hd⟩ := ih s1 (reach_run h h1) (by omega)
        refine ⟨who :: whos, s', ?_, hd⟩
        simp only [goOn, List.map_cons, run, h1, Option.bind_some]
        exact hs

/-- **C81 violated.** A job with a callback that calls `Interject` never comes to its end, whenever it begins and whatever happens then. -/
theorem C81_violated_callback (s : St) (h : Reach Job.Quiet s) (hg : s.g = []) (j : Job) (hj : ¬ j.Quiet) :
    ∃ s1, step s (.job j) = some s1 ∧ ∀ ls s2, run s1 ls = some s2 → s2.g ≠ [] := by
  obtain ⟨held, hi⟩ := inv_reach h
  refine ⟨{ s with g := j.prog }, by simp [step, hg], fun ls s2 hs => ?_⟩
  obtain ⟨_, hd⟩ := invD_run (invD_job hi hg hj) hs
  exact g_of_doomed hd

/-- **C81 violated.** With each of the three callbacks and with the method `Revoked` of the store: the group goroutine comes to the call of `Interject`, stays there for
ever, and from then on nobody gets `workerMux`, so that the loop which polls for records can not hand them to a worker. -/
theorem C81_violated_for_ever (j : Job)
    (hj : j = .assign [true] 1 ∨ j = .revoke [(1, 0)] 0 ∨ j = .revoke [(0, 1)] 0 ∨ j = .revoke [(0, 0)] 1) :
    ∃ n s, run St.init (.job j :: List.replicate n (.run none)) = some s ∧
      ∀ ls s', run s ls = some s' → s'.Blocked none ∧ ∀ i r, s'.prog (some i) = .lock .worker :: r → s'.Blocked (some i) := by
  have key : ∀ s, (∃ held, InvD s held) → (∃ r, s.g = .lock .worker :: r) → s.own .worker = some none →
      ∀ ls s', run s ls = some s' → s'.Blocked none ∧ ∀ i r, s'.prog (some i) = .lock .worker :: r → s'.Blocked (some i) := by
    rintro s ⟨held, hi⟩ ⟨r, hr⟩ ho ls s' hs
    obtain ⟨h1, h2⟩ := stuck_run hi hr ho hs
    have hp : s'.prog none = .lock .worker :: r := h1
    exact ⟨⟨by simp [hp], by simp [step, hp, exec, h2]⟩, fun i r' hp' => ⟨by simp [hp'], by simp [step, hp', exec, h2]⟩⟩
  have inv : ∀ n s, run St.init (.job j :: List.replicate n (.run none)) = some s → ∃ held, InvD s held := by
    intro n s hs
    obtain ⟨held, hi⟩ := inv_reach (Reach.init (P := Job.Quiet))
    have hq : ¬ j.Quiet := by rcases hj with rfl | rfl | rfl | rfl <;> simp [Job.Quiet]
    exact invD_run (invD_job hi rfl hq) (by simpa [run, step, St.init] using hs)
  have fin : ∀ n, (∃ s, run St.init (.job j :: List.replicate n (.run none)) = some s ∧ (∃ r, s.g = .lock .worker :: r) ∧
      s.own .worker = some none) → ∃ n s, run St.init (.job j :: List.replicate n (.run none)) = some s ∧
      ∀ ls s', run s ls = some s' → s'.Blocked none ∧ ∀ i r, s'.prog (some i) = .lock .worker :: r → s'.Blocked (some i) := by
    rintro n ⟨s, h1, h2, h3⟩
    exact ⟨n, s, h1, key s (inv n s h1) h2 h3⟩
  rcases hj with rfl | rfl | rfl | rfl
  · exact fin 8 ⟨_, rfl, ⟨_, rfl⟩, rfl⟩
  · exact fin 1 ⟨_, rfl, ⟨_, rfl⟩, rfl⟩
  · exact fin 2 ⟨_, rfl, ⟨_, rfl⟩, rfl⟩
  · exact fin 3 ⟨_, rfl, ⟨_, rfl⟩, rfl⟩

/-- A busy consumer: an assignment is in progress and has `workerMux`, `preppingMux`; a preparation that was ordered before waits for `preppingMux`, the loop that polls
waits for `workerMux`. -/
def busy : List Label :=
  [.job (.parse [false] [true]), .run none, .run none, .run none, .run (some 1), .run (some 1), .run (some 1), .run (some 1), .run none, .run none,
    .job (.assign [true, false] 0), .run none, .run none, .start (.worker 1)]

/-- Runs are reached. -/
theorem reach_of_run {P : Job → Prop} {s s' : St} (h : Reach P s) {ls : List Label} (hp : ∀ j, Label.job j ∈ ls → P j) (hs : run s ls = some s') :
    Reach P s' := by
  induction ls generalizing s with
  | nil => simp [run] at hs; subst hs; exact h
  | cons l ls ih =>
    simp only [run] at hs
    cases h1 : step s l with
    | none => rw [h1] at hs; simp at hs
    | some s1 =>
      rw [h1] at hs
      exact ih (.step h (fun j hj => hp j (by simp [hj])) h1) (fun j hj => hp j (by simp [hj])) hs

/-- The hypotheses can be met: two goroutines are blocked, the group goroutine is not, and 21 instructions are left. -/
example : ∃ s, Reach Job.Quiet s ∧ ¬ s.Idle ∧ s.Blocked (some 0) ∧ s.Blocked (some 2) ∧ s.left = 21 := by
  have hd : ∃ s, run St.init busy = some s ∧ s.prog (some 0) ≠ [] ∧ step s (.run (some 0)) = none ∧ s.prog (some 2) ≠ [] ∧
      step s (.run (some 2)) = none ∧ s.left = 21 := ⟨_, rfl, by decide +kernel, rfl, by decide +kernel, rfl, by decide +kernel⟩
  obtain ⟨s, h1, h2, h3, h4, h5, h6⟩ := hd
  refine ⟨s, reach_of_run .init (fun j hj => ?_) h1, fun hi => h2 (hi _), ⟨h2, h3⟩, ⟨h4, h5⟩, h6⟩
  simp [busy] at hj
  rcases hj with rfl | rfl <;> simp [Job.Quiet]

/-- A job that is not quiet can begin in a consumer that has done other things before. -/
example : ∃ s, Reach Job.Quiet s ∧ s.g = [] ∧ s.ts ≠ [] ∧ ¬ (Job.revoke [(0, 0), (2, 0)] 0).Quiet := by
  have hd : ∃ s, run St.init (busy.take 10) = some s ∧ s.g = [] ∧ s.ts ≠ [] := ⟨_, rfl, rfl, by decide +kernel⟩
  obtain ⟨s, h1, h2, h3⟩ := hd
  refine ⟨s, reach_of_run .init (fun j hj => ?_) h1, h2, h3, by simp [Job.Quiet]⟩
  simp [busy] at hj
  subst hj; simp [Job.Quiet]

end Verif.Locks
