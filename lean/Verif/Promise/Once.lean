import Verif.Promise.Proofs
import Mathlib.Data.List.Perm.Subperm
/-
No event is lost and none is completed twice.
-/
namespace Verif.Promise
open Verif.Scheduler (upd upd_self upd_ne)

/-- How often an event is somewhere in the system. -/
def copies (s : Sys) (e : Ev) : Nat :=
  (s.evq e.part).count e + (s.batches.map Prod.fst).count e + (if s.posting = some e then 1 else 0) + (s.jobs e.part).count e + s.done.count e

/-- All events that arrived are in the system once. -/
def Trace (s : Sys) : Prop :=
  (∃ all : List Ev, all.map (·.id) = List.range s.next ∧ ∀ e, copies s e = all.count e) ∧ ∀ p, ∀ e ∈ s.jobs p, e.part = p

theorem trace_init : Trace Sys.init := by
  refine ⟨⟨[], rfl, fun e => by simp [copies, Sys.init]⟩, by simp [Sys.init]⟩

theorem trace_step {c : Cfg} {s s' : Sys} {a : Act} (I : Inv c s) (T : Trace s) (h : step c s a = some s') : Trace s' := by
  obtain ⟨⟨all, T1, T2⟩, T3⟩ := T
  cases a with
  | arrive p n =>
    simp only [step] at h
    split at h
    · simp only [Option.some.injEq] at h; subst h
      refine ⟨⟨all ++ [⟨p, s.next, n + 1⟩], by simp [T1, List.range_succ], fun e => ?_⟩, T3⟩
      have := T2 e
      simp only [copies] at this ⊢
      rw [List.count_append, ← this]
      by_cases hp : e.part = p
      · subst hp; rw [upd_self, List.count_append]; omega
      · rw [upd_ne _ _ hp]
        have : [(⟨p, s.next, n + 1⟩ : Ev)].count e = 0 := by
          rw [List.count_eq_zero]; intro hc; simp only [List.mem_singleton] at hc; subst hc; exact hp rfl
        omega
    · simp at h
  | handle p =>
    simp only [step] at h
    split at h
    · rename_i e rest hph hev
      simp only [Option.some.injEq] at h; subst h
      refine ⟨⟨all, T1, fun f => ?_⟩, T3⟩
      have hm := (I.mine p e (by rw [hev]; simp)).1
      rw [← T2 f]
      simp only [copies, List.map_append, List.map_cons, List.map_nil, List.count_append]
      by_cases hp : f.part = p
      · subst hp; rw [upd_self, hev, List.count_cons, List.count_cons, List.count_nil]; omega
      · rw [upd_ne _ _ hp]
        have : [e].count f = 0 := by
          rw [List.count_eq_zero]; intro hc; simp only [List.mem_singleton] at hc; subst hc; exact hp hm
        omega
    · simp at h
  | produce p =>
    simp only [step] at h
    split at h
    · split at h
      · simp only [Option.some.injEq] at h; subst h
        exact ⟨⟨all, T1, fun f => by rw [← T2 f]; rfl⟩, T3⟩
      · simp at h
    · simp at h
  | promise i =>
    simp only [step] at h
    split at h
    · rename_i e hpo hbuf
      split at h
      · simp at h
      · rename_i n hp
        have hmem := pending_mem hp
        split at h
        · simp only [Option.some.injEq] at h; subst h
          refine ⟨⟨all, T1, fun f => ?_⟩, T3⟩
          rw [← T2 f]
          simp only [copies, hpo]
          have hk : (s.batches.filter fun b => b.1 ≠ e).map Prod.fst = (s.batches.map Prod.fst).filter fun x => x ≠ e := by
            rw [List.filter_map]; rfl
          rw [hk]
          have hin : e ∈ s.batches.map Prod.fst := List.mem_map.2 ⟨_, hmem, rfl⟩
          by_cases hf : f = e
          · subst hf
            have h1 : (s.batches.map Prod.fst).count f = 1 := by rw [I.keys.count]; simp [hin]
            have h2 : ((s.batches.map Prod.fst).filter fun x => x ≠ f).count f = 0 := by
              rw [List.count_eq_zero]; intro hc; simp at hc
            rw [h1, h2]; simp
          · have h2 : ((s.batches.map Prod.fst).filter fun x => x ≠ e).count f = (s.batches.map Prod.fst).count f := by
              rw [List.count_filter]; simpa using hf
            rw [h2]; simp [Ne.symm hf]
        · simp only [Option.some.injEq] at h; subst h
          refine ⟨⟨all, T1, fun f => ?_⟩, T3⟩
          rw [← T2 f]
          simp only [copies, hpo, countDown_keys]
    · simp at h
  | post =>
    simp only [step] at h
    split at h
    · rename_i e hpo
      split at h
      · simp only [Option.some.injEq] at h; subst h
        refine ⟨⟨all, T1, fun f => ?_⟩, fun p f hf => ?_⟩
        · rw [← T2 f]
          simp only [copies, hpo]
          by_cases hp : f.part = e.part
          · rw [hp, upd_self, List.count_append]
            by_cases hf : f = e
            · subst hf; simp; omega
            · have : [e].count f = 0 := by rw [List.count_eq_zero]; simpa using hf
              rw [this]; simp [Ne.symm hf]
          · rw [upd_ne _ _ hp]
            have hf : e ≠ f := by rintro rfl; exact hp rfl
            simp [hf]
        · dsimp only at hf
          by_cases hp : p = e.part
          · subst hp; rw [upd_self] at hf
            simp only [List.mem_append, List.mem_singleton] at hf
            rcases hf with hf | rfl
            · exact T3 _ f hf
            · rfl
          · rw [upd_ne _ _ hp] at hf; exact T3 p f hf
      · simp at h
    · simp at h
  | job p =>
    simp only [step] at h
    split at h
    · rename_i e rest hph hj
      simp only [Option.some.injEq] at h; subst h
      have he := T3 p e (by rw [hj]; simp)
      refine ⟨⟨all, T1, fun f => ?_⟩, fun q f hf => ?_⟩
      · rw [← T2 f]
        simp only [copies, List.count_append]
        by_cases hp : f.part = p
        · subst hp; rw [upd_self, hj, List.count_cons, List.count_cons, List.count_nil]; omega
        · rw [upd_ne _ _ hp]
          have : [e].count f = 0 := by
            rw [List.count_eq_zero]; intro hc; simp only [List.mem_singleton] at hc; subst hc; exact hp he
          omega
      · dsimp only at hf
        by_cases hp : q = p
        · subst hp; rw [upd_self] at hf; exact T3 q f (by rw [hj]; simp [hf])
        · rw [upd_ne _ _ hp] at hf; exact T3 q f hf
    · simp at h

theorem trace_run {c : Cfg} {as : List Act} {s s' : Sys} (I : Inv c s) (T : Trace s) (h : run c s as = some s') : Trace s' := by
  induction as generalizing s with
  | nil => simp only [run, Option.some.injEq] at h; subst h; exact T
  | cons a as ih =>
    simp only [run, Option.bind_eq_some_iff] at h
    obtain ⟨s1, e1, e2⟩ := h
    exact ih (inv_step I e1) (trace_step I T e1) e2

theorem trace_reach {c : Cfg} {s : Sys} (h : Reach c s) : Trace s := by
  obtain ⟨as, h⟩ := h
  exact trace_run (inv_init c) trace_init h

/-- Nothing is completed twice. -/
theorem done_once {s : Sys} (T : Trace s) : (s.done.map (·.id)).Nodup := by
  obtain ⟨⟨all, T1, T2⟩, _⟩ := T
  have hnd : (all.map (·.id)).Nodup := by rw [T1]; exact List.nodup_range
  have hsub : s.done.Subperm all := by
    rw [List.subperm_ext_iff]
    intro e _
    have := T2 e
    simp only [copies] at this
    omega
  obtain ⟨l, h1, h2⟩ := hsub
  exact ((h1.map (·.id)).nodup_iff).1 (hnd.sublist (h2.map _))

/-- When nothing is left, all events are completed. -/
theorem done_all {s : Sys} (T : Trace s) (hb : s.batches = []) (hp : s.posting = none) (hq : ∀ p, s.evq p = [] ∧ s.jobs p = []) :
    (s.done.map (·.id)).Perm (List.range s.next) := by
  obtain ⟨⟨all, T1, T2⟩, _⟩ := T
  rw [← T1]
  apply List.Perm.map
  rw [List.perm_iff_count]
  intro e
  have := T2 e
  simp only [copies, hb, hp, (hq e.part).1, (hq e.part).2] at this
  simpa using this

end Verif.Promise
