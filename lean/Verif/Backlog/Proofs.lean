import Verif.Backlog.Model
import Verif.Scheduler.Limits
import Mathlib.Data.List.Perm.Subperm
/-
Invariants of the workers with the scheduler.
-/
set_option linter.unusedSimpArgs false
set_option linter.unusedSectionVars false
namespace Verif.Backlog
open Verif.Scheduler

variable {K : Type} [DecidableEq K]

/-- The completed jobs in the scheduler's log. -/
def comps (log : List (Ev K)) : List (Job K) := log.filterMap (fun e => match e with | .comp x => some x | _ => none)

theorem comps_append (a b : List (Ev K)) : comps (a ++ b) = comps a ++ comps b := by simp [comps]

theorem comps_pairs (xs : List (Job K)) : comps (pairs xs) = xs := by
  induction xs with
  | nil => rfl
  | cons x xs ih =>
    have : pairs (x :: xs) = [.start x, .comp x] ++ pairs xs := rfl
    rw [this, comps_append, ih]
    rfl

theorem count_comps (y : Job K) (log : List (Ev K)) : (comps log).count y = (comps (busyLog y.key log)).count y := by
  induction log with
  | nil => rfl
  | cons e log ih =>
    have h1 : comps (e :: log) = comps [e] ++ comps log := comps_append [e] log
    have h2 : busyLog y.key (e :: log) = busyLog y.key [e] ++ busyLog y.key log := busyLog_append y.key [e] log
    rw [h1, h2, comps_append, List.count_append, List.count_append, ih]
    congr 1
    cases e with
    | sched x => rfl
    | start x => by_cases h : x.key = y.key <;> simp [comps, busyLog, h]
    | comp x =>
      by_cases h : x.key = y.key
      · simp [comps, busyLog, h]
      · have : x ≠ y := fun hc => h (by rw [hc])
        simp [comps, busyLog, h, this]

theorem count_sub (y : Job K) (l : List (Job K)) : (sub y.caller y.key l).count y = l.count y := by
  unfold sub
  rw [List.count_filter]
  simp

/-- The completions of a job, together with one about to be submitted, are among those that have left the queue of its key. -/
theorem count_left {s : State K} {A : K → List (Job K)} (I : Scheduler.Inv s.view) (HS : ∀ k, Shape s.log s.view.proc s.view.adv k (A k)) (y : Job K) :
    (comps s.log).count y ≤ (A y.key).count y ∧ ∀ t w x, s.threads t = .wAdv w x → (comps s.log ++ [x]).count y ≤ (A y.key).count y := by
  rw [count_comps]
  have hc := HS y.key
  constructor
  · rcases hc with ⟨b, _⟩ | ⟨_, _, x, _, _, b⟩ | ⟨_, _, x, xs, _, _, ha, b⟩
    · rw [b, comps_pairs]; exact Nat.le_refl _
    · rw [b, comps_append, comps_pairs]
      simp [comps]
    · rw [b, comps_append, comps_pairs]
      rw [ha, List.count_append]
      simp [comps]
  · intro t w x ht
    have hadv : s.view.adv t = some (w, x) := by simp [State.view, ht, Phase.adv]
    rw [List.count_append, count_comps]
    by_cases hk : x.key = y.key
    · rcases hc with ⟨_, b⟩ | ⟨t', w', x', hp, hk', b⟩ | ⟨t', w', x', xs, ha', hk', ha, b⟩
      · exact absurd hk (b t w x (.inr hadv))
      · exfalso
        -- two goroutines busy with the same key
        have C := coh_view s
        have m1 := I.procMap _ _ _ hp
        have m2 := I.advMap _ _ _ hadv
        rw [hk'] at m1
        rw [hk] at m2
        have e := nodup_fst_inj I.keysNodup m1 m2
        subst e
        have et := I.hold_inj (C.proc_hold _ _ _ hp) (C.adv_hold _ _ _ hadv)
        subst et
        simp only [State.view, ht, Phase.proc] at hp
        cases hp
      · have C := coh_view s
        have m1 := I.advMap _ _ _ ha'
        have m2 := I.advMap _ _ _ hadv
        rw [hk'] at m1
        rw [hk] at m2
        have e := nodup_fst_inj I.keysNodup m1 m2
        subst e
        have et := I.hold_inj (C.adv_hold _ _ _ ha') (C.adv_hold _ _ _ hadv)
        subst et
        rw [ha'] at hadv
        injection hadv with hadv
        injection hadv with _ hx
        subst hx
        rw [b, comps_append, comps_pairs]
        rw [ha, List.count_append]
        simp [comps]
    · have hxy : x ≠ y := fun hc => hk (by rw [hc])
      have : ([x] : List (Job K)).count y = 0 := by simp [hxy]
      rw [this]
      rcases hc with ⟨b, _⟩ | ⟨_, _, x, _, _, b⟩ | ⟨_, _, x, xs, _, _, ha, b⟩
      · rw [b, comps_pairs]; exact Nat.le_refl _
      · rw [b, comps_append, comps_pairs]
        simp [comps]
      · rw [b, comps_append, comps_pairs]
        rw [ha, List.count_append]
        simp [comps]

/-- A job whose completion is about to be submitted was accepted more often than it was completed; any other at least as often. -/
theorem count_adv {s : State K} (G : Good s) (y : Job K) : (comps s.log).count y ≤ (scheds s.log).count y ∧
    ∀ t w x, s.threads t = .wAdv w x → (comps s.log ++ [x]).count y ≤ (scheds s.log).count y := by
  obtain ⟨I, A, HS, HO⟩ := G
  have hA : ((A y.key)).count y ≤ (scheds s.log).count y := by
    obtain ⟨d, e, _⟩ := HO y.caller y.key
    have : (sub y.caller y.key (scheds s.log)).count y = (sub y.caller y.key (A y.key) ++ sub y.caller y.key (s.view.kq y.key) ++
        sub y.caller y.key (s.view.pend y.caller).toList ++ d).count y := by
      have e' : sub y.caller y.key (scheds s.log) = _ := e
      rw [e']
    rw [count_sub] at this
    simp only [List.count_append, count_sub] at this
    omega
  have hl := count_left I HS y
  exact ⟨Nat.le_trans hl.1 hA, fun t w x ht => Nat.le_trans (hl.2 t w x ht) hA⟩

/-- The number of jobs of worker `p`. -/
def of (p : Nat) (l : List (Job K)) : Nat := (l.filter fun x => decide (x.caller = p)).length

theorem of_append (p : Nat) (a b : List (Job K)) : of p (a ++ b) = of p a + of p b := by simp [of]
theorem of_one (p : Nat) (x : Job K) : of p [x] = if x.caller = p then 1 else 0 := by by_cases h : x.caller = p <;> simp [of, h]

/-- Every slot of a worker belongs to an event in `eventInput`, a job inside the scheduler or a job in `asyncJobs`. -/
structure Inv (c : Cfg) (s : Sys K) : Prop where
  good : Good s.sch
  count : ∀ p, (s.evq p).length + of p (scheds s.sch.log) + (s.jobs p).length = s.slots p + of p (comps s.sch.log)
  cap : ∀ p, s.slots p ≤ c.maxPending
  mine : ∀ p, ∀ x ∈ s.evq p, x.caller = p

theorem inv_init (c : Cfg) : Inv c (Sys.init (K := K) c) where
  good := good_init _
  count p := by simp [Sys.init, Scheduler.init, scheds, comps, of]
  cap p := by simp [Sys.init]
  mine p x hx := by simp [Sys.init] at hx

/-- Only `call` and `complete` write to these parts of the log. -/
theorem quiet_log {s s' : State K} {l : Label K} (h : Scheduler.step s l = some s') (h1 : ∀ x, l ≠ .call x) (h2 : ∀ t, l ≠ .complete t) :
    scheds s'.log = scheds s.log ∧ comps s'.log = comps s.log := by
  cases l with
  | call x => exact absurd rfl (h1 x)
  | complete t => exact absurd rfl (h2 t)
  | peek t =>
    simp only [Scheduler.step] at h
    split at h
    · simp only [Option.some.injEq] at h
      subst h
      unfold State.peekStep
      split
      · exact ⟨rfl, rfl⟩
      · split
        · exact ⟨rfl, rfl⟩
        · simp [scheds_append, comps_append, scheds, comps]
    · cases h
  | lock t pick =>
    simp only [Scheduler.step] at h
    split at h
    · unfold State.lock at h
      split at h
      · simp only [Option.some.injEq] at h; subst h; exact ⟨rfl, rfl⟩
      · split at h
        · simp only [Option.some.injEq] at h; subst h; exact ⟨rfl, rfl⟩
        · simp only [Option.map_eq_some_iff] at h
          obtain ⟨r, hr, e⟩ := h
          subst e
          have : r.1.log = s.log := by
            unfold State.poolGet at hr
            split at hr
            · split at hr
              · simp only [Option.some.injEq] at hr; subst hr; rfl
              · cases hr
            · simp only [Option.some.injEq] at hr; subst hr; rfl
          show scheds r.1.log = _ ∧ comps r.1.log = _
          rw [this]
          exact ⟨rfl, rfl⟩
    · cases h
  | xfer t =>
    simp only [Scheduler.step] at h
    split at h
    · simp only [Option.some.injEq] at h
      subst h
      unfold State.xferStep
      split
      · split <;> exact ⟨rfl, rfl⟩
      · exact ⟨rfl, rfl⟩
    · cases h
  | release t =>
    simp only [Scheduler.step] at h
    split at h
    · simp only [Option.some.injEq] at h
      subst h
      unfold State.release
      split <;> exact ⟨rfl, rfl⟩
    · cases h
  | setMax t n =>
    simp only [Scheduler.step] at h
    split at h
    · unfold State.setMax at h
      split at h
      · split at h <;> (simp only [Option.some.injEq] at h; subst h; exact ⟨rfl, rfl⟩)
      · cases h
    · cases h
  | send t =>
    simp only [Scheduler.step] at h
    split at h
    · unfold State.send at h
      split at h
      · simp only [Option.some.injEq] at h; subst h; exact ⟨rfl, rfl⟩
      · cases h
    · unfold State.send at h
      split at h
      · simp only [Option.some.injEq] at h; subst h; exact ⟨rfl, rfl⟩
      · cases h
    · cases h
  | recv t =>
    simp only [Scheduler.step] at h
    split at h
    · unfold State.recv at h
      split at h
      · simp only [Option.some.injEq] at h; subst h; exact ⟨rfl, rfl⟩
      · split at h
        · simp only [Option.some.injEq] at h; subst h; exact ⟨rfl, rfl⟩
        · cases h
    · cases h
  | put t =>
    simp only [Scheduler.step] at h
    split at h
    · simp only [Option.map_eq_some_iff] at h
      obtain ⟨q, _, e⟩ := h
      subst e
      exact ⟨rfl, rfl⟩
    · cases h
  | wake t =>
    simp only [Scheduler.step] at h
    split at h
    · split at h
      · simp only [Option.some.injEq] at h; subst h; exact ⟨rfl, rfl⟩
      · cases h
    · cases h
  | cancel t =>
    simp only [Scheduler.step] at h
    split at h
    · split at h
      · simp only [Option.some.injEq] at h; subst h; exact ⟨rfl, rfl⟩
      · cases h
    · cases h
  | exit t =>
    simp only [Scheduler.step] at h
    split at h
    · split at h
      · simp only [Option.some.injEq] at h; subst h; exact ⟨rfl, rfl⟩
      · cases h
    · cases h
  | eval t =>
    simp only [Scheduler.step] at h
    split at h
    · simp only [Option.some.injEq] at h; subst h; exact ⟨rfl, rfl⟩
    · cases h
  | finish t =>
    simp only [Scheduler.step] at h
    split at h
    · simp only [Option.some.injEq] at h; subst h; exact ⟨rfl, rfl⟩
    · cases h
  | signal t =>
    simp only [Scheduler.step] at h
    split at h
    · simp only [Option.some.injEq] at h; subst h; exact ⟨rfl, rfl⟩
    · cases h
  | setDepth n => simp only [Scheduler.step, Option.some.injEq] at h; subst h; exact ⟨rfl, rfl⟩
  | close => simp only [Scheduler.step, Option.some.injEq] at h; subst h; exact ⟨rfl, rfl⟩

/-- What a step inside the scheduler is, seen from outside. -/
theorem inner_cases {c : Cfg} {s s' : Sys K} {l : Label K} (h : step c s (.inner l) = some s') :
    (∃ t w x sch, l = .complete t ∧ s.sch.threads t = .wAdv w x ∧ (s.jobs x.caller).length < c.asyncSize ∧ Scheduler.step s.sch l = some sch ∧
      s' = { s with sch := sch, jobs := upd s.jobs x.caller (s.jobs x.caller ++ [x]) }) ∨
    ((∀ x, l ≠ .call x) ∧ (∀ t, l ≠ .complete t) ∧ ∃ sch, Scheduler.step s.sch l = some sch ∧ s' = { s with sch := sch }) := by
  cases l with
  | call x => simp [step] at h
  | complete t =>
    simp only [step] at h
    split at h
    · rename_i w x ht
      split at h
      · rename_i hr
        simp only [Option.map_eq_some_iff] at h
        obtain ⟨sch, e1, e2⟩ := h
        exact .inl ⟨t, w, x, sch, rfl, ht, hr, e1, e2.symm⟩
      · cases h
    · cases h
  | _ =>
    simp only [step, Option.map_eq_some_iff] at h
    obtain ⟨sch, e1, e2⟩ := h
    exact .inr ⟨by simp, by simp, sch, e1, e2.symm⟩

theorem inv_step {c : Cfg} {s s' : Sys K} {a : Act K} (I : Inv c s) (h : step c s a = some s') : Inv c s' := by
  cases a with
  | arrive p k =>
    simp only [step] at h
    split at h
    · rename_i hc
      simp only [Option.some.injEq] at h
      subst h
      refine ⟨I.good, fun q => ?_, fun q => ?_, fun q x hx => ?_⟩
      · have := I.count q
        dsimp only [upd]
        by_cases hq : q = p
        · subst hq; simp; omega
        · simpa [hq] using this
      · have := I.cap q
        dsimp only [upd]
        by_cases hq : q = p
        · subst hq; simp; omega
        · simpa [hq] using this
      · dsimp only [upd] at hx
        by_cases hq : q = p
        · subst hq
          simp only [if_true, List.mem_append, List.mem_singleton] at hx
          rcases hx with hx | rfl
          · exact I.mine _ _ hx
          · rfl
        · rw [if_neg hq] at hx
          exact I.mine _ _ hx
    · cases h
  | handle p =>
    simp only [step] at h
    split at h
    · rename_i x rest hx
      simp only [Option.map_eq_some_iff] at h
      obtain ⟨sch, e1, e2⟩ := h
      subst e2
      have hp := I.mine p x (by rw [hx]; simp)
      have hlog : sch.log = s.sch.log ++ [.sched x] := by
        simp only [Scheduler.step] at e1
        split at e1
        · split at e1
          · cases e1
          · simp only [Option.some.injEq] at e1; subst e1; rfl
        · cases e1
      refine ⟨good_next I.good e1, fun q => ?_, I.cap, fun q y hy => ?_⟩
      · have := I.count q
        dsimp only [upd]
        rw [hlog, scheds_append, comps_append, of_append, of_append]
        have e3 : of q (scheds [Ev.sched x]) = if x.caller = q then 1 else 0 := of_one q x
        have e4 : of q (comps [Ev.sched x]) = 0 := rfl
        rw [e3, e4]
        by_cases hq : q = p
        · subst hq
          rw [hx] at this
          simp [hp] at this ⊢
          omega
        · have : ¬ x.caller = q := fun hc => hq (by rw [← hc, hp])
          simp [hq, this]
          omega
      · dsimp only [upd] at hy
        by_cases hq : q = p
        · subst hq
          rw [if_pos rfl] at hy
          exact I.mine q y (by rw [hx]; simp [hy])
        · rw [if_neg hq] at hy
          exact I.mine _ _ hy
    · cases h
  | job p =>
    simp only [step] at h
    split at h
    · rename_i x rest ht hj
      simp only [Option.some.injEq] at h
      subst h
      refine ⟨I.good, fun q => ?_, fun q => ?_, I.mine⟩
      · have := I.count q
        dsimp only [upd]
        by_cases hq : q = p
        · subst hq
          rw [hj] at this
          simp at this ⊢
          have hle : of q (comps s.sch.log) ≤ of q (scheds s.sch.log) := by
            have hs : (comps s.sch.log).Subperm (scheds s.sch.log) :=
              List.subperm_ext_iff.2 fun y _ => (count_adv I.good y).1
            exact (hs.filter _).length_le
          omega
        · simpa [hq] using this
      · have := I.cap q
        dsimp only [upd]
        by_cases hq : q = p
        · subst hq; simp; omega
        · simpa [hq] using this
    · cases h
  | inner l =>
    rcases inner_cases h with ⟨t, w, x, sch, rfl, ht, hr, e1, rfl⟩ | ⟨h1, h2, sch, e1, rfl⟩
    · have hlog : sch.log = s.sch.log ++ [.comp x] := by
        simp only [Scheduler.step, ht, Option.some.injEq] at e1
        subst e1
        rfl
      refine ⟨good_next I.good e1, fun q => ?_, I.cap, I.mine⟩
      have := I.count q
      dsimp only [upd]
      rw [hlog, scheds_append, comps_append, of_append, of_append]
      have e3 : of q (comps [Ev.comp x]) = if x.caller = q then 1 else 0 := of_one q x
      have e4 : of q (scheds [Ev.comp x]) = 0 := rfl
      rw [e3, e4]
      by_cases hq : q = x.caller
      · subst hq
        simp
        omega
      · have : ¬ x.caller = q := fun hc => hq hc.symm
        simp [hq, this]
        omega
    · obtain ⟨q1, q2⟩ := quiet_log e1 h1 h2
      refine ⟨good_next I.good e1, fun q => ?_, I.cap, I.mine⟩
      have := I.count q
      dsimp only
      rw [q1, q2]
      exact this

theorem inv_run {c : Cfg} {s s' : Sys K} {as : List (Act K)} (I : Inv c s) (h : run c s as = some s') : Inv c s' := by
  induction as generalizing s with
  | nil => simp only [run, Option.some.injEq] at h; subst h; exact I
  | cons a as ih =>
    simp only [run, Option.bind_eq_some_iff] at h
    obtain ⟨s1, e1, e2⟩ := h
    exact ih (inv_step I e1) e2

theorem inv_reach {c : Cfg} {s : Sys K} (h : Reach c s) : Inv c s := by
  obtain ⟨as, h⟩ := h
  exact inv_run (inv_init c) h

/-- While a goroutine is about to submit a completion, the channel of its worker has fewer jobs than slots. -/
theorem room {c : Cfg} {s : Sys K} (I : Inv c s) {t w : Nat} {x : Job K} (ht : s.sch.threads t = .wAdv w x) : (s.jobs x.caller).length < c.maxPending := by
  have hs : (comps s.sch.log ++ [x]).Subperm (scheds s.sch.log) := List.subperm_ext_iff.2 fun y _ => (count_adv I.good y).2 t w x ht
  have hl : of x.caller (comps s.sch.log ++ [x]) ≤ of x.caller (scheds s.sch.log) := (hs.filter _).length_le
  rw [of_append, of_one, if_pos rfl] at hl
  have := I.count x.caller
  have := I.cap x.caller
  omega

end Verif.Backlog
