import Verif.Backlog.Quiet
/-
However workers and scheduler are interleaved, they come to rest, as long as no queue loses its head.
-/
set_option linter.unusedSimpArgs false
set_option linter.unusedSectionVars false
namespace Verif.Backlog
open Verif.Scheduler

variable {K : Type} [DecidableEq K]

/-- Only the goroutines below `N` have anything to do. -/
structure Out (N : Nat) (s : Sys K) : Prop where
  sch : Outside N s.sch
  idle : ∀ p, N ≤ p → s.evq p = [] ∧ s.jobs p = []
  log : ∀ x ∈ scheds s.sch.log, x.caller < N

theorem adv_sched {c : Cfg} {s : Sys K} (I : Inv c s) {t w : Nat} {x : Job K} (ht : s.sch.threads t = .wAdv w x) : x ∈ scheds s.sch.log := by
  have := (count_adv I.good x).2 t w x ht
  rw [List.count_append, List.count_singleton_self] at this
  exact List.count_pos_iff.1 (by omega)

theorem call_same {s s' : State K} {x : Job K} (h : Scheduler.step s (.call x) = some s') :
    s.threads x.caller = .idle ∧ s.closed = false ∧ s' = { (s.goto x.caller (.want x)) with log := s.log ++ [.sched x] } := by
  simp only [Scheduler.step] at h
  split at h
  · rename_i hi
    split at h
    · simp at h
    · rename_i hc
      simp only [Option.some.injEq] at h
      exact ⟨hi, by simpa using hc, h.symm⟩
  · simp at h

/-- The steps that remain before workers and scheduler come to rest. -/
def todo (N : Nat) (s : Sys K) : Nat :=
  2 * s.sch.todo N + sumTo (fun p => (s.jobs p).length) N + 29 * sumTo (fun p => (s.evq p).length) N

theorem todo_own {c : Cfg} {N : Nat} {s s' : Sys K} {a : Act K} (I : Inv c s) (C : Kept s.sch.view) (Z : Sized s.sch) (O : Out N s) (ho : s.sch.closed = false)
    (hh : Scheduler.Spec.headsKept s.sch) (ha : Spec.own a) (h : step c s a = some s') :
    todo N s' < todo N s ∧ Kept s'.sch.view ∧ Sized s'.sch ∧ Out N s' ∧ s'.sch.closed = false := by
  have inner : ∀ l sch, Scheduler.Spec.unaided l → Scheduler.step s.sch l = some sch →
      sch.todo N < s.sch.todo N ∧ Outside N sch ∧ Kept sch.view ∧ Sized sch ∧ sch.closed = false := by
    intro l sch hl e
    have hi := inner_of hl
    obtain ⟨h1, h2⟩ := todo_step I.good C Z (filled_of I.good ho hh) O.sch ho hi e
    exact ⟨h1, h2, kept_next I.good C e (fun t m e => by rw [e] at hi; simp [Label.inner] at hi), sized_step I.good Z e, (unaided_closed hi e).trans ho⟩
  cases a with
  | arrive p k => exact ha.elim
  | handle p =>
    simp only [step] at h
    split at h
    · rename_i x rest hx
      simp only [Option.map_eq_some_iff] at h
      obtain ⟨sch, e, rfl⟩ := h
      obtain ⟨e1, e2, e3⟩ := call_same e
      have hm := I.mine p x (by rw [hx]; simp)
      have hp : p < N := by
        by_contra hc
        rw [(O.idle p (by omega)).1] at hx
        simp at hx
      have hlog : scheds sch.log = scheds s.sch.log ++ [x] := by rw [e3]; simp [scheds]
      have ht : sch.todo N = s.sch.todo N + 14 := by
        have := todo_goto (s := s.sch) (s' := sch) (N := N) (t := x.caller) (p := .want x) (by rw [hm]; exact hp) (by rw [e3]; rfl) (by rw [e3]; rfl) (by rw [e3]; rfl)
        rw [e1] at this
        simp only [weight_idle, weight_want] at this
        have h1 : sch.chans = s.sch.chans := by rw [e3]; rfl
        have h2 : sch.cur = s.sch.cur := by rw [e3]; rfl
        have h3 : sch.wk = s.sch.wk := by rw [e3]; rfl
        have h4 : sch.nw = s.sch.nw := by rw [e3]; rfl
        have h5 : sch.sig = s.sch.sig := by rw [e3]; rfl
        simp only [State.todo, h1, h2, h3, h4, h5]
        omega
      refine ⟨?_, kept_next I.good C e (by simp), sized_step I.good Z e, ⟨?_, fun q hq => ?_, fun y hy => ?_⟩, by rw [step_closed e (by simp)]; exact ho⟩
      · have := sumTo_one (f := fun q => (s.evq q).length) (g := fun q => (upd s.evq p rest q).length) hp (fun q hq => by rw [upd_ne _ _ hq])
        simp only [upd_self, hx, List.length_cons] at this
        simp only [todo, ht]
        omega
      · exact outside_goto O.sch (t := x.caller) (by rw [hm]; exact hp) (by rw [e3]; rfl)
      · have hqp : q ≠ p := by omega
        dsimp only; rw [upd_ne _ _ hqp]; exact O.idle q hq
      · dsimp only at hy
        rw [hlog, List.mem_append, List.mem_singleton] at hy
        rcases hy with hy | rfl
        · exact O.log y hy
        · rw [hm]; exact hp
    · simp at h
  | job p =>
    simp only [step] at h
    split at h
    · rename_i x rest hi hj
      simp only [Option.some.injEq] at h; subst h
      have hp : p < N := by
        by_contra hc
        rw [(O.idle p (by omega)).2] at hj
        simp at hj
      refine ⟨?_, C, Z, ⟨O.sch, fun q hq => ?_, O.log⟩, ho⟩
      · have := sumTo_one (f := fun q => (s.jobs q).length) (g := fun q => (upd s.jobs p rest q).length) hp (fun q hq => by rw [upd_ne _ _ hq])
        simp only [upd_self, hj, List.length_cons] at this
        simp only [todo]
        omega
      · have hqp : q ≠ p := by omega
        dsimp only; rw [upd_ne _ _ hqp]; exact O.idle q hq
    · simp at h
  | inner l =>
    rcases inner_cases h with ⟨t', w', x', sch, rfl, ht, hr, e, rfl⟩ | ⟨h1, h2, sch, e, rfl⟩
    · obtain ⟨i1, i2, i3, i4, i5⟩ := inner (.complete t') sch ha e
      have hp : x'.caller < N := O.log x' (adv_sched I ht)
      have hlog : scheds sch.log = scheds s.sch.log := by
        simp only [Scheduler.step, ht, Option.some.injEq] at e
        subst e
        simp [scheds]
      refine ⟨?_, i3, i4, ⟨i2, fun q hq => ?_, by dsimp only; rw [hlog]; exact O.log⟩, i5⟩
      · have := sumTo_one (f := fun q => (s.jobs q).length) (g := fun q => (upd s.jobs x'.caller (s.jobs x'.caller ++ [x']) q).length) hp (fun q hq => by rw [upd_ne _ _ hq])
        simp only [upd_self, List.length_append, List.length_singleton] at this
        simp only [todo]
        omega
      · have hqp : q ≠ x'.caller := by omega
        dsimp only; rw [upd_ne _ _ hqp]; exact O.idle q hq
    · obtain ⟨i1, i2, i3, i4, i5⟩ := inner _ sch ha e
      refine ⟨by simp only [todo]; omega, i3, i4, ⟨i2, O.idle, ?_⟩, i5⟩
      dsimp only; rw [(quiet_log e h1 h2).1]; exact O.log

/-- The heads are kept along the way. -/
def Spec.keptAlong (c : Cfg) (s : Sys K) (as : List (Act K)) : Prop := ∀ bs u, bs <+: as → run c s bs = some u → Scheduler.Spec.headsKept u.sch

theorem own_bound {c : Cfg} {N : Nat} : ∀ (as : List (Act K)) (s s' : Sys K), Inv c s → Kept s.sch.view → Sized s.sch → Out N s → s.sch.closed = false →
    run c s as = some s' → (∀ a ∈ as, Spec.own a) → Spec.keptAlong c s as → as.length ≤ todo N s := by
  intro as
  induction as with
  | nil => intros; exact Nat.zero_le _
  | cons a as ih =>
    intro s s' I C Z O ho h ha hk
    simp only [run, Option.bind_eq_some_iff] at h
    obtain ⟨s1, e1, e2⟩ := h
    obtain ⟨t1, C1, Z1, O1, ho1⟩ := todo_own I C Z O ho (hk [] s List.nil_prefix rfl) (ha a (by simp)) e1
    have := ih s1 s' (inv_step I e1) C1 Z1 O1 ho1 e2 (fun b hb => ha b (by simp [hb]))
      (fun bs u hp hr => hk (a :: bs) u ((List.prefix_cons_inj a).2 hp) (by simp only [run, e1, Option.bind_some]; exact hr))
    simp only [List.length_cons]
    omega

theorem out_step' {c : Cfg} {s s' : Sys K} {a : Act K} (I : Inv c s) (h : step c s a = some s') (O : ∃ N, Out N s) : ∃ N, Out N s' := by
  obtain ⟨N, O⟩ := O
  have inner : ∀ l sch, (∀ x, l = .call x → x.caller < N) → Scheduler.step s.sch l = some sch → ∃ M, N ≤ M ∧ Outside M sch := by
    intro l sch _ e
    obtain ⟨M, hM⟩ := outside_run (ls := [l]) (s := s.sch) (s' := sch) (by simp [Scheduler.run, e]) ⟨N, O.sch⟩
    exact ⟨max N M, by omega, fun t ht => hM t (by omega)⟩
  cases a with
  | arrive p k =>
    simp only [step] at h
    split at h
    · simp only [Option.some.injEq] at h; subst h
      refine ⟨max N (p + 1), fun t ht => O.sch t (by omega), fun q hq => ?_, fun x hx => by have := O.log x hx; omega⟩
      have hqp : q ≠ p := by omega
      dsimp only; rw [upd_ne _ _ hqp]; exact O.idle q (by omega)
    · simp at h
  | handle p =>
    simp only [step] at h
    split at h
    · rename_i x rest hx
      simp only [Option.map_eq_some_iff] at h
      obtain ⟨sch, e, rfl⟩ := h
      obtain ⟨e1, e2, e3⟩ := call_same e
      have hm := I.mine p x (by rw [hx]; simp)
      have hp : p < N := by
        by_contra hc
        rw [(O.idle p (by omega)).1] at hx
        simp at hx
      have hlog : scheds sch.log = scheds s.sch.log ++ [x] := by rw [e3]; simp [scheds]
      refine ⟨N, ?_, fun q hq => ?_, fun y hy => ?_⟩
      · exact outside_goto O.sch (t := x.caller) (by rw [hm]; exact hp) (by rw [e3]; rfl)
      · have hqp : q ≠ p := by omega
        dsimp only; rw [upd_ne _ _ hqp]; exact O.idle q hq
      · dsimp only at hy
        rw [hlog, List.mem_append, List.mem_singleton] at hy
        rcases hy with hy | rfl
        · exact O.log y hy
        · rw [hm]; exact hp
    · simp at h
  | job p =>
    simp only [step] at h
    split at h
    · rename_i x rest hi hj
      simp only [Option.some.injEq] at h; subst h
      have hp : p < N := by
        by_contra hc
        rw [(O.idle p (by omega)).2] at hj
        simp at hj
      refine ⟨N, O.sch, fun q hq => ?_, O.log⟩
      have hqp : q ≠ p := by omega
      dsimp only; rw [upd_ne _ _ hqp]; exact O.idle q hq
    · simp at h
  | inner l =>
    rcases inner_cases h with ⟨t', w', x', sch, rfl, ht, hr, e, rfl⟩ | ⟨h1, h2, sch, e, rfl⟩
    · obtain ⟨M, hM, hO⟩ := inner _ sch (by simp) e
      have hp : x'.caller < N := O.log x' (adv_sched I ht)
      have hlog : scheds sch.log = scheds s.sch.log := by
        simp only [Scheduler.step, ht, Option.some.injEq] at e
        subst e
        simp [scheds]
      refine ⟨M, hO, fun q hq => ?_, fun y hy => ?_⟩
      · have hqp : q ≠ x'.caller := by omega
        dsimp only; rw [upd_ne _ _ hqp]; exact O.idle q (by omega)
      · dsimp only at hy; rw [hlog] at hy; have := O.log y hy; omega
    · obtain ⟨M, hM, hO⟩ := inner _ sch (fun x hx => absurd hx (h1 x)) e
      refine ⟨M, hO, fun q hq => O.idle q (by omega), fun y hy => ?_⟩
      dsimp only at hy; rw [(quiet_log e h1 h2).1] at hy; have := O.log y hy; omega

theorem out_reach {c : Cfg} {as : List (Act K)} {s s' : Sys K} (I : Inv c s) (h : run c s as = some s') (O : ∃ N, Out N s) : ∃ N, Out N s' := by
  induction as generalizing s with
  | nil => simp only [run, Option.some.injEq] at h; subst h; exact O
  | cons a as ih =>
    simp only [run, Option.bind_eq_some_iff] at h
    obtain ⟨s1, e1, e2⟩ := h
    exact ih (inv_step I e1) e2 (out_step' I e1 O)

/-- From every state reached there is a bound on what workers and scheduler do on their own. -/
theorem bounded {c : Cfg} {as : List (Act K)} {s : Sys K} (h : run c (Sys.init c) as = some s) (hr : Spec.onlyRaised c (Sys.init c) as) (ho : s.sch.closed = false) :
    ∃ n, ∀ bs s', run c s bs = some s' → (∀ a ∈ bs, Spec.own a) → Spec.keptAlong c s bs → bs.length ≤ n := by
  obtain ⟨N, O⟩ := out_reach (inv_init c) h ⟨c.sched.concurrency, outside_init c.sched, fun p _ => ⟨rfl, rfl⟩, by simp [Sys.init, Scheduler.init, scheds]⟩
  obtain ⟨ls, hrun, hg⟩ := project h hr
  have hrun' : Scheduler.run (Scheduler.init c.sched) ls = some s.sch := hrun
  have hg' : Grows (Scheduler.init (K := K) c.sched) ls := hg
  exact ⟨todo N s, fun bs s' h' ha hk => own_bound bs s s' (inv_run (inv_init c) h) (kept_run (good_init c.sched) (kept_init c.sched) hg' hrun')
    (sized_run (good_init c.sched) (sized_init c.sched) hrun') O ho h' ha hk⟩

end Verif.Backlog
