import Verif.Backlog.Stuck
import Mathlib.Tactic.Common
import Mathlib.Data.List.Nodup
/-
When nothing can move any more, everything is done, provided `asyncJobs` has room for every slot.
-/
set_option linter.unusedSimpArgs false
set_option linter.unusedSectionVars false
set_option linter.unusedVariables false
namespace Verif.Backlog
open Verif.Scheduler

variable {K : Type} [DecidableEq K]

/-- The limit on the keys is never lowered along these steps (`SetMaxConcurrentKeys`, `streams/async_scheduler.go:310-325`). -/
def Spec.onlyRaised (c : Cfg) (s : Sys K) : List (Act K) → Prop
  | [] => True
  | a :: as => (∀ t n, a = .inner (.setMax t n) → s.sch.maxKeys ≤ n) ∧ ∀ s', step c s a = some s' → Spec.onlyRaised c s' as

/-- What the workers and the scheduler do without help from outside: taking events and jobs (`streams/partition_worker.go:235-239`), and the steps of goroutines inside
the scheduler (`streams/async_scheduler.go:231-301`). -/
def Spec.own : Act K → Prop
  | .arrive _ _ => False
  | .handle _ | .job _ => True
  | .inner l => Scheduler.Spec.unaided l

/-- Every run contains a run of the scheduler. -/
theorem project {c : Cfg} {s s' : Sys K} {as : List (Act K)} (h : run c s as = some s') (hr : Spec.onlyRaised c s as) :
    ∃ ls, Scheduler.run s.sch ls = some s'.sch ∧ Grows s.sch ls := by
  induction as generalizing s with
  | nil => simp only [run, Option.some.injEq] at h; subst h; exact ⟨[], rfl, trivial⟩
  | cons a as ih =>
    simp only [run, Option.bind_eq_some_iff] at h
    obtain ⟨s1, e1, e2⟩ := h
    obtain ⟨ls, r, g⟩ := ih e2 (hr.2 s1 e1)
    have one : ∀ l, Scheduler.step s.sch l = some s1.sch → (∀ t n, l = .setMax t n → s.sch.maxKeys ≤ n) →
        ∃ ls, Scheduler.run s.sch ls = some s'.sch ∧ Grows s.sch ls := by
      intro l e hl
      refine ⟨l :: ls, by simp only [Scheduler.run, e, Option.bind_some]; exact r, hl, ?_⟩
      intro s2 h2
      rw [e] at h2
      simp only [Option.some.injEq] at h2
      subst h2
      exact g
    cases a with
    | arrive p k =>
      simp only [step] at e1
      split at e1
      · simp only [Option.some.injEq] at e1; subst e1; exact ⟨ls, r, g⟩
      · simp at e1
    | handle p =>
      simp only [step] at e1
      split at e1
      · simp only [Option.map_eq_some_iff] at e1
        obtain ⟨sch, e, rfl⟩ := e1
        exact one _ e (by simp)
      · simp at e1
    | job p =>
      simp only [step] at e1
      split at e1
      · simp only [Option.some.injEq] at e1; subst e1; exact ⟨ls, r, g⟩
      · simp at e1
    | inner l =>
      have hl : ∀ t n, l = .setMax t n → s.sch.maxKeys ≤ n := fun t n e => hr.1 t n (by rw [e])
      rcases inner_cases e1 with ⟨t', w', x', sch, rfl, ht, hr, e, rfl⟩ | ⟨h1, h2, sch, e, rfl⟩
      · exact one _ e hl
      · exact one _ e hl

/-! ### No goroutine becomes one of the scheduler -/

/-- A goroutine that calls the scheduler (`streams/async_scheduler.go:231-279`, `310-349`). -/
def isOut : Phase K → Bool
  | .idle | .want _ | .waiting _ | .blockAdd _ _ | .enq _ | .xfer _ _ => true
  | _ => false

theorem out_step {s s' : State K} {l : Label K} (h : Scheduler.step s l = some s') {t : Nat} (ht : isOut (s.threads t) = true) : isOut (s'.threads t) = true := by
  by_cases hl : l.thr = some t
  · cases l <;> simp only [Label.thr, Option.some.injEq, reduceCtorEq] at hl <;> subst hl <;> simp only [Scheduler.step] at h <;> split at h
    all_goals try (simp at h; done)
    all_goals rename_i e
    all_goals try (rw [e] at ht; simp [isOut] at ht; done)
    · split at h
      · simp at h
      · simp only [Option.some.injEq] at h; subst h; simp [State.goto, isOut]
    · rename_i pick y
      unfold State.lock at h
      split at h
      · simp only [Option.some.injEq] at h; subst h
        simp only [State.add, goto_self]
        split <;> simp [isOut]
      · split at h
        · simp only [Option.some.injEq] at h; subst h; simp [State.goto, isOut]
        · simp only [Option.map_eq_some_iff] at h
          obtain ⟨r, _, rfl⟩ := h
          simp only [State.add, goto_self]
          split <;> simp [isOut]
    · split at h
      · simp only [Option.some.injEq] at h; subst h
        simp only [goto_self]
        split <;> simp [isOut]
      · simp at h
    · simp only [Option.map_eq_some_iff] at h
      obtain ⟨q, _, rfl⟩ := h
      rw [goto_self]; rfl
    · split at h
      · simp only [Option.some.injEq] at h; subst h; rw [goto_self]; rfl
      · simp at h
    · unfold State.send at h
      split at h
      · simp only [Option.some.injEq] at h; subst h; simp [State.goto, isOut]
      · simp at h
    · unfold State.setMax at h
      split at h
      · split at h <;> simp only [Option.some.injEq] at h <;> subst h
        · simp [State.goto, isOut]
        · exact ht
      · simp at h
    · simp only [Option.some.injEq] at h; subst h
      unfold State.xferStep
      split
      · split <;> simp [State.publish, State.goto, isOut]
      · simp [State.publish, State.goto, isOut]
  · rw [step_other h hl]; exact ht

theorem out_run {ls : List (Label K)} {s s' : State K} (h : Scheduler.run s ls = some s') {t : Nat} (ht : isOut (s.threads t) = true) : isOut (s'.threads t) = true := by
  induction ls generalizing s with
  | nil => simp only [Scheduler.run, Option.some.injEq] at h; subst h; exact ht
  | cons l ls ih =>
    simp only [Scheduler.run, Option.bind_eq_some_iff] at h
    obtain ⟨s1, e1, e2⟩ := h
    exact ih e2 (out_step e1 ht)

/-! ### No two events are the same -/

structure Fresh (s : Sys K) : Prop where
  nodup : (scheds s.sch.log).Nodup
  old : ∀ x ∈ scheds s.sch.log, x.id < s.next
  ahead : ∀ p, ∀ x ∈ s.evq p, x.id < s.next ∧ x ∉ scheds s.sch.log
  line : ∀ p, (s.evq p).Nodup

theorem fresh_init (c : Cfg) : Fresh (Sys.init (K := K) c) := by
  constructor <;> simp [Sys.init, Scheduler.init, scheds]

theorem fresh_step {c : Cfg} {s s' : Sys K} {a : Act K} (I : Inv c s) (F : Fresh s) (h : step c s a = some s') : Fresh s' := by
  cases a with
  | arrive p k =>
    simp only [step] at h
    split at h
    · simp only [Option.some.injEq] at h; subst h
      refine ⟨F.nodup, fun x hx => Nat.lt_succ_of_lt (F.old x hx), fun q x hx => ?_, fun q => ?_⟩
      · dsimp only [upd] at hx
        by_cases hq : q = p
        · rw [if_pos hq] at hx
          simp only [List.mem_append, List.mem_singleton] at hx
          rcases hx with hx | rfl
          · exact ⟨Nat.lt_succ_of_lt (F.ahead p x hx).1, (F.ahead p x hx).2⟩
          · exact ⟨Nat.lt_succ_self _, fun hc => absurd (F.old _ hc) (Nat.lt_irrefl _)⟩
        · rw [if_neg hq] at hx
          exact ⟨Nat.lt_succ_of_lt (F.ahead q x hx).1, (F.ahead q x hx).2⟩
      · dsimp only [upd]
        by_cases hq : q = p
        · rw [if_pos hq, List.nodup_append]
          refine ⟨F.line p, by simp, fun a ha b hb => ?_⟩
          simp only [List.mem_singleton] at hb
          rintro rfl
          have := (F.ahead p a ha).1
          rw [hb] at this
          exact absurd this (Nat.lt_irrefl _)
        · rw [if_neg hq]; exact F.line q
    · simp at h
  | handle p =>
    simp only [step] at h
    split at h
    · rename_i x rest hx
      simp only [Option.map_eq_some_iff] at h
      obtain ⟨sch, e, rfl⟩ := h
      have hlog : scheds sch.log = scheds s.sch.log ++ [x] := by
        simp only [Scheduler.step] at e
        split at e
        · split at e
          · simp at e
          · simp only [Option.some.injEq] at e; subst e; simp [scheds]
        · simp at e
      have hmem := F.ahead p x (by rw [hx]; simp)
      have hl := F.line p
      rw [hx, List.nodup_cons] at hl
      refine ⟨?_, fun y hy => ?_, fun q y hy => ?_, fun q => ?_⟩
      · dsimp only; rw [hlog, List.nodup_append]
        refine ⟨F.nodup, by simp, fun a ha b hb => ?_⟩
        simp only [List.mem_singleton] at hb
        rintro rfl
        exact hmem.2 (hb ▸ ha)
      · dsimp only at hy ⊢
        rw [hlog] at hy
        simp only [List.mem_append, List.mem_singleton] at hy
        rcases hy with hy | rfl
        · exact F.old y hy
        · exact hmem.1
      · dsimp only [upd] at hy ⊢
        rw [hlog]
        simp only [List.mem_append, List.mem_singleton, not_or]
        by_cases hq : q = p
        · rw [if_pos hq] at hy
          have := F.ahead p y (by rw [hx]; simp [hy])
          exact ⟨this.1, this.2, fun e => hl.1 (e ▸ hy)⟩
        · rw [if_neg hq] at hy
          have := F.ahead q y hy
          refine ⟨this.1, this.2, fun e => hq ?_⟩
          rw [← I.mine q y hy, ← I.mine p x (by rw [hx]; simp), e]
      · dsimp only [upd]
        by_cases hq : q = p
        · rw [if_pos hq]; exact hl.2
        · rw [if_neg hq]; exact F.line q
    · simp at h
  | job p =>
    simp only [step] at h
    split at h
    · simp only [Option.some.injEq] at h; subst h; exact ⟨F.nodup, F.old, F.ahead, F.line⟩
    · simp at h
  | inner l =>
    rcases inner_cases h with ⟨t', w', x', sch, rfl, ht, hr, e, rfl⟩ | ⟨h1, h2, sch, e, rfl⟩
    · have hlog : scheds sch.log = scheds s.sch.log := by
        simp only [Scheduler.step, ht, Option.some.injEq] at e
        subst e
        simp [scheds]
      exact ⟨by rw [hlog]; exact F.nodup, by rw [hlog]; exact F.old, by rw [hlog]; exact F.ahead, F.line⟩
    · have hlog := (quiet_log e h1 h2).1
      exact ⟨by rw [hlog]; exact F.nodup, by rw [hlog]; exact F.old, by rw [hlog]; exact F.ahead, F.line⟩

theorem fresh_run {c : Cfg} {as : List (Act K)} {s s' : Sys K} (I : Inv c s) (F : Fresh s) (h : run c s as = some s') : Fresh s' := by
  induction as generalizing s with
  | nil => simp only [run, Option.some.injEq] at h; subst h; exact F
  | cons a as ih =>
    simp only [run, Option.bind_eq_some_iff] at h
    obtain ⟨s1, e1, e2⟩ := h
    exact ih (inv_step I e1) (fresh_step I F e1) e2

/-- A job that is not yet in a queue was accepted more often than completed, even if a completion is about to be submitted. -/
theorem count_pend {s : State K} (G : Good s) {t : Nat} {x : Job K} (ht : s.view.pend t = some x) : (comps s.log).count x + 1 ≤ (scheds s.log).count x ∧
    ∀ t' w y, s.threads t' = .wAdv w y → (comps s.log ++ [y]).count x + 1 ≤ (scheds s.log).count x := by
  obtain ⟨I, A, HS, HO⟩ := G
  have hcal := I.pendCaller t x ht
  have hA : ((A x.key)).count x + 1 ≤ (scheds s.log).count x := by
    obtain ⟨d, e, _⟩ := HO x.caller x.key
    have : (sub x.caller x.key (scheds s.log)).count x = (sub x.caller x.key (A x.key) ++ sub x.caller x.key (s.view.kq x.key) ++
        sub x.caller x.key (s.view.pend x.caller).toList ++ d).count x := by
      have e' : sub x.caller x.key (scheds s.log) = _ := e
      rw [e']
    rw [count_sub] at this
    simp only [List.count_append, count_sub] at this
    rw [hcal, ht] at this
    simp only [Option.toList, List.count_singleton_self] at this
    omega
  have hl := count_left I HS x
  refine ⟨by have := hl.1; omega, fun t' w y h => ?_⟩
  have := hl.2 t' w y h
  omega

/-- While a goroutine is about to submit a completion of a worker that is in `Schedule`, the channel of that worker has at least two jobs fewer than slots. -/
theorem room_two {c : Cfg} {s : Sys K} (I : Inv c s) {t w : Nat} {x y : Job K} (ht : s.sch.threads t = .wAdv w x) (hp : s.sch.view.pend x.caller = some y) :
    (s.jobs x.caller).length + 1 < c.maxPending := by
  have hcal := I.good.1.pendCaller _ _ hp
  have hs : (comps s.sch.log ++ [x] ++ [y]).Subperm (scheds s.sch.log) := List.subperm_ext_iff.2 fun z _ => by
    rw [List.count_append]
    by_cases hz : y = z
    · subst hz
      rw [List.count_singleton_self]
      exact (count_pend I.good hp).2 t w x ht
    · have : ([y] : List (Job K)).count z = 0 := by simp [hz]
      rw [this]
      exact (count_adv I.good z).2 t w x ht
  have hl : of x.caller (comps s.sch.log ++ [x] ++ [y]) ≤ of x.caller (scheds s.sch.log) := (hs.filter _).length_le
  rw [of_append, of_append, of_one, of_one, if_pos rfl, if_pos hcal] at hl
  have := I.count x.caller
  have := I.cap x.caller
  omega

/-- The callers of the scheduler are the workers. -/
structure Callers (c : Cfg) (s : Sys K) : Prop where
  log : ∀ x ∈ scheds s.sch.log, c.sched.concurrency ≤ x.caller
  evq : ∀ p, ∀ x ∈ s.evq p, c.sched.concurrency ≤ x.caller

theorem callers_step {c : Cfg} {s s' : Sys K} {a : Act K} (C : Callers c s) (h : step c s a = some s') : Callers c s' := by
  obtain ⟨C1, C2⟩ := C
  cases a with
  | arrive p k =>
    simp only [step] at h
    split at h
    · rename_i hc
      simp only [Option.some.injEq] at h; subst h
      refine ⟨C1, fun q x hx => ?_⟩
      dsimp only [upd] at hx
      split at hx
      · simp only [List.mem_append, List.mem_singleton] at hx
        rcases hx with hx | rfl
        · exact C2 p x hx
        · exact hc.1
      · exact C2 q x hx
    · simp at h
  | handle p =>
    simp only [step] at h
    split at h
    · rename_i x rest hx
      simp only [Option.map_eq_some_iff] at h
      obtain ⟨sch, e, rfl⟩ := h
      have hlog : scheds sch.log = scheds s.sch.log ++ [x] := by
        simp only [Scheduler.step] at e
        split at e
        · split at e
          · simp at e
          · simp only [Option.some.injEq] at e; subst e; simp [scheds]
        · simp at e
      have hall : ∀ y ∈ s.evq p, c.sched.concurrency ≤ y.caller := C2 p
      rw [hx] at hall
      refine ⟨fun y hy => ?_, fun q y hy => ?_⟩
      · dsimp only at hy
        rw [hlog] at hy
        simp only [List.mem_append, List.mem_singleton] at hy
        rcases hy with hy | rfl
        · exact C1 y hy
        · exact hall y (by simp)
      · dsimp only [upd] at hy
        split at hy
        · exact hall y (by simp [hy])
        · exact C2 q y hy
    · simp at h
  | job p =>
    simp only [step] at h
    split at h
    · simp only [Option.some.injEq] at h; subst h; exact ⟨C1, C2⟩
    · simp at h
  | inner l =>
    rcases inner_cases h with ⟨t', w', x', sch, rfl, ht, hr, e, rfl⟩ | ⟨h1, h2, sch, e, rfl⟩
    · have hlog : scheds sch.log = scheds s.sch.log := by
        simp only [Scheduler.step, ht, Option.some.injEq] at e
        subst e
        simp [scheds]
      exact ⟨by rw [hlog]; exact C1, C2⟩
    · exact ⟨by rw [(quiet_log e h1 h2).1]; exact C1, C2⟩

theorem callers_run {c : Cfg} {as : List (Act K)} {s s' : Sys K} (C : Callers c s) (h : run c s as = some s') : Callers c s' := by
  induction as generalizing s with
  | nil => simp only [run, Option.some.injEq] at h; subst h; exact C
  | cons a as ih =>
    simp only [run, Option.bind_eq_some_iff] at h
    obtain ⟨s1, e1, e2⟩ := h
    exact ih (callers_step C e1) e2

theorem mem_comps {x : Job K} {log : List (Ev K)} : x ∈ comps log ↔ Ev.comp x ∈ log := by
  simp only [comps, List.mem_filterMap]
  constructor
  · rintro ⟨e, he, h⟩
    cases e <;> simp at h
    subst h; exact he
  · intro h; exact ⟨_, h, rfl⟩

/-- When nothing moves any more by itself, every worker has handled all of its events and taken all of its jobs. -/
theorem quiet {c : Cfg} {as : List (Act K)} {s : Sys K} (hc : 1 ≤ c.sched.concurrency) (hP : c.maxPending ≤ c.asyncSize + 1) (h : run c (Sys.init c) as = some s)
    (hr : Spec.onlyRaised c (Sys.init c) as) (ho : s.sch.closed = false) (hh : Scheduler.Spec.headsKept s.sch) (hend : ∀ a, Spec.own a → step c s a = none)
    (p : Nat) (hp : c.sched.concurrency ≤ p) : s.sch.threads p = .idle ∧ s.evq p = [] ∧ s.jobs p = [] ∧ s.slots p = 0 := by
  have I := inv_run (inv_init c) h
  have F := fresh_run (inv_init c) (fresh_init c) h
  obtain ⟨ls, hrun, hg⟩ := project h hr
  have hrun' : Scheduler.run (Scheduler.init c.sched) ls = some s.sch := hrun
  have hg' : Grows (Scheduler.init (K := K) c.sched) ls := hg
  have hsome : ∀ l, Scheduler.Spec.unaided l → (∀ t, l ≠ .complete t) → Scheduler.step s.sch l = none := by
    intro l hl hl'
    have hn := hend (.inner l) hl
    by_contra hne
    obtain ⟨sch, e⟩ := Option.ne_none_iff_exists'.mp hne
    cases l with
    | call x => exact hl
    | complete t => exact hl' t rfl
    | _ => simp only [step, e, Option.map_some, reduceCtorEq] at hn
  have hrw : s.sch.rw = false := by
    by_contra hrw
    have hrw : s.sch.rw = true := by simpa using hrw
    have N := kept_run (good_init c.sched) (kept_init c.sched) hg' hrun'
    obtain ⟨t, n, i, hx⟩ := N.hasxf hrw
    have ht : s.sch.threads t = .xfer n i := by
      simp only [State.view] at hx
      cases e : s.sch.threads t <;> simp_all [Phase.xf]
    have := hsome (.xfer t) trivial (by simp)
    simp [Scheduler.step, ht] at this
  have hfree : ∀ q, c.sched.concurrency ≤ q → s.sch.view.pend q = none → s.sch.threads q = .idle := by
    intro q hq hpe
    have hout : isOut (s.sch.threads q) = true := out_run hrun' (by simp [Scheduler.init, Nat.not_lt.mpr hq, isOut])
    cases e : s.sch.threads q with
    | idle => rfl
    | want x => simp [State.view, e, Phase.pend] at hpe
    | waiting x => simp [State.view, e, Phase.pend] at hpe
    | blockAdd w x => simp [State.view, e, Phase.pend] at hpe
    | enq w =>
      have h1 := C20_no_deadlock_partial hrun' hg' (.inl e) hrw
      rw [hsome (.send q) trivial (by simp)] at h1
      simp at h1
    | xfer n i =>
      have := hsome (.xfer q) trivial (by simp)
      simp [Scheduler.step, e] at this
    | _ => rw [e] at hout; simp [isOut] at hout
  have hstep : ∀ l, Scheduler.Spec.unaided l → Scheduler.step s.sch l = none := by
    intro l hl
    by_cases hl' : ∃ t, l = .complete t
    · obtain ⟨t, rfl⟩ := hl'
      by_contra hne
      cases ht : s.sch.threads t with
      | wAdv w x =>
        have hn := hend (.inner (.complete t)) hl
        have hr := room I ht
        by_cases hj : (s.jobs x.caller).length < c.asyncSize
        · simp [step, ht, if_pos hj, Scheduler.step] at hn
        · have hcal : c.sched.concurrency ≤ x.caller := by
            have := (count_adv I.good x).2 t w x ht
            rw [List.count_append, List.count_singleton_self] at this
            exact (callers_run ⟨by simp [Sys.init, Scheduler.init, scheds], by simp [Sys.init]⟩ h : Callers c s).log x (List.count_pos_iff.1 (by omega))
          have hpe : s.sch.view.pend x.caller = none := by
            cases e : s.sch.view.pend x.caller with
            | none => rfl
            | some y => have := room_two I ht e; omega
          have hi := hfree x.caller hcal hpe
          cases e : s.jobs x.caller with
          | nil =>
            rw [e] at hj
            have : 0 < c.asyncSize := by unfold Cfg.asyncSize Cfg.inputSize; omega
            simp at hj; omega
          | cons z rest =>
            have := hend (.job x.caller) trivial
            simp [step, e, hi] at this
      | _ => simp [Scheduler.step, ht] at hne
    · exact hsome l hl fun t e => hl' ⟨t, e⟩
  have hdone : ∀ x ∈ scheds s.sch.log, Ev.comp x ∈ s.sch.log := fun x hx => C19_all_completed_partial hc hg' hrun' ho hh hstep hx
  have hpend : ∀ t x, s.sch.view.pend t = some x → False := by
    intro t x ht
    have h1 := (count_pend I.good ht).1
    have h2 : (scheds s.sch.log).count x ≤ 1 := List.nodup_iff_count_le_one.1 F.nodup x
    have h3 : x ∈ scheds s.sch.log := List.count_pos_iff.1 (by omega)
    have h4 : 0 < (comps s.sch.log).count x := List.count_pos_iff.2 (mem_comps.2 (hdone x h3))
    omega
  have hidle : s.sch.threads p = .idle := hfree p hp (by
    cases e : s.sch.view.pend p with
    | none => rfl
    | some y => exact (hpend p y e).elim)
  have hevq : s.evq p = [] := by
    cases e : s.evq p with
    | nil => rfl
    | cons x rest =>
      have hm := I.mine p x (by rw [e]; simp)
      have := hend (.handle p) trivial
      simp [step, e, Scheduler.step, hm, hidle, ho] at this
  have hjobs : s.jobs p = [] := by
    cases e : s.jobs p with
    | nil => rfl
    | cons x rest =>
      have := hend (.job p) trivial
      simp [step, e, hidle] at this
  refine ⟨hidle, hevq, hjobs, ?_⟩
  have hs : (scheds s.sch.log).Subperm (comps s.sch.log) := F.nodup.subperm fun x hx => mem_comps.2 (hdone x hx)
  have hl : of p (scheds s.sch.log) ≤ of p (comps s.sch.log) := (hs.filter _).length_le
  have := I.count p
  rw [hevq, hjobs] at this
  have hs' : (comps s.sch.log).Subperm (scheds s.sch.log) := List.subperm_ext_iff.2 fun y _ => (count_adv I.good y).1
  have hl' : of p (comps s.sch.log) ≤ of p (scheds s.sch.log) := (hs'.filter _).length_le
  simp at this
  omega

/-! ### A deadlock at rest -/

theorem plain_raised (c : Cfg) (as : List (Act K)) (h : ∀ a ∈ as, plain a = true) (s : Sys K) : Spec.onlyRaised c s as := by
  induction as generalizing s with
  | nil => trivial
  | cons a as ih =>
    refine ⟨fun t n e => ?_, fun s' _ => ih (fun b hb => h b (by simp [hb])) s'⟩
    have := h a (by simp)
    rw [e] at this
    simp [plain] at this

/-- Once a worker and a goroutine of the scheduler wait for each other and nothing else is going on, nothing moves any more. -/
theorem still_end {c : Cfg} {m w : Nat} {k : K} {x y : Job K} {s : Sys K} (hc : 1 ≤ c.sched.concurrency) (S : Stuck c c.sched.concurrency 0 w k x y s)
    (Q : Still c c.sched.concurrency m k w s) : Scheduler.Spec.headsKept s.sch ∧ ∀ a, Spec.own a → step c s a = none := by
  obtain ⟨s1, s2, s3, s4, s5, s6, s7, s8⟩ := S
  obtain ⟨q1, q2, q3, q4, a1, a2, a3, a4⟩ := Q
  refine ⟨?_, fun a ha => ?_⟩
  · intro k' w' hm hh
    rw [q1] at hm
    simp only [List.mem_singleton, Prod.mk.injEq] at hm
    obtain ⟨_, rfl⟩ := hm
    exact absurd hh s7
  · have hth : ∀ t, t = 0 ∨ t = c.sched.concurrency ∨ s.sch.threads t = .wWait 0 ∨ s.sch.threads t = .idle := by
      intro t
      rcases Nat.eq_zero_or_pos t with h0 | h0
      · exact .inl h0
      rcases Nat.lt_trichotomy t c.sched.concurrency with h | h | h
      · exact .inr (.inr (.inl (a1 t h0 h)))
      · exact .inr (.inl h)
      · exact .inr (.inr (.inr (a2 t h)))
    cases a with
    | arrive p k' => exact ha.elim
    | handle p =>
      have : s.evq p = [] := by
        by_cases hp : p = c.sched.concurrency
        · rw [hp]; exact q4
        · exact (a3 p hp).1
      simp [step, this]
    | job p =>
      by_cases hp : p = c.sched.concurrency
      · simp [step, hp, s5]
      · simp [step, (a3 p hp).2]
    | inner l =>
      have hj : ¬ (s.jobs x.caller).length < c.asyncSize := by rw [s4]; omega
      cases l with
      | call z => exact ha.elim
      | setMax t n => exact ha.elim
      | setDepth n => exact ha.elim
      | close => exact ha.elim
      | lock t pick => rcases hth t with rfl | rfl | e | e <;> simp [step, Scheduler.step, *]
      | _ t =>
        rcases hth t with rfl | rfl | e | e
        · simp [step, Scheduler.step, s3, hj]
        · simp [step, Scheduler.step, s5, s1, Queue.put, Nat.not_lt.mpr s8]
        · simp [step, Scheduler.step, e, State.recv, q2, q3, s1]
        · simp [step, Scheduler.step, e]

end Verif.Backlog
