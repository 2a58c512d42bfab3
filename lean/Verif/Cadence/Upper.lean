import Verif.Cadence.Proofs
/-
The upper bound behind C101: how late the next call can be.
-/
namespace Verif.Cadence
open Verif.Periodic

set_option linter.unusedSimpArgs false
set_option linter.unreachableTactic false
set_option linter.unusedTactic false

variable {every jitter : Int} {s s' : S} {l : Label} {lt : Spec.Lat}

/-- How far the activation can have got, at the latest. -/
structure Late (every jitter : Int) (lt : Spec.Lat) (s : S) : Prop where
  due : ∀ e, lastEnd s.hist = some e → ∀ d ∈ s.due, d ≤ e + Spec.longest every jitter
  push : ∀ e, lastEnd s.hist = some e → 0 < s.ij.pushing → s.mark ≤ e + Spec.longest every jitter + lt.timer
  take : ∀ e, lastEnd s.hist = some e → true ∈ s.ij.chan → s.mark ≤ e + Spec.longest every jitter + lt.timer + lt.push
  call : ∀ e, lastEnd s.hist = some e → 0 < s.ij.sched → s.mark ≤ e + Spec.longest every jitter + lt.timer + lt.push + lt.take

theorem late_init : Late every jitter lt S.init := by constructor <;> simp [S.init, lastEnd]

theorem late_step (I : Inv every jitter s) (T : Spec.InTime lt s) (L : Late every jitter lt s) (h : step every jitter s l = some s') : Late every jitter lt s' := by
  have one := inFlight_of I.good
  cases l with
  | start k n =>
    simp only [step] at h
    split at h
    · rename_i hk
      simp only [Option.map_eq_some_iff] at h
      obtain ⟨j, hj, rfl⟩ := h
      simp only [Periodic.step] at hj
      split at hj
      · simp at hj
      rename_i hs
      simp only [Option.some.injEq] at hj; subst hj
      have h0 := (I.good.fresh (by simpa using hs)).1
      unfold Spec.inFlight at h0
      have hd : s.due = [] := List.length_eq_zero_iff.1 (by rw [I.len]; omega)
      have hc : true ∉ s.ij.chan := List.count_eq_zero.1 (by omega)
      have := toNat_longest (every := every) (jitter := jitter) (n := n) hk
      constructor <;> simp_all [lastEnd, Ij.tick, S.dueAt]
    · simp at h
  | expire i =>
    simp only [step] at h
    split at h
    · rename_i d hd
      split at h
      · rename_i hle
        simp only [Option.map_eq_some_iff] at h
        obtain ⟨j, hj, rfl⟩ := h
        simp only [Periodic.step] at hj
        split at hj
        · rename_i ht
          simp only [Option.some.injEq] at hj; subst hj
          have hmem : d ∈ s.due := List.mem_of_getElem? hd
          have hc : true ∉ s.ij.chan := List.count_eq_zero.1 (by omega)
          refine ⟨fun e he x hx => L.due e he x (List.mem_of_mem_eraseIdx hx), fun e he _ => ?_, fun e he hm => absurd hm hc, fun e he hp => ?_⟩
          · have := L.due e he d hmem; have := T.timer d hmem; dsimp only; omega
          · dsimp only at hp; omega
        · simp at hj
      · simp at h
    · simp at h
  | enter =>
    simp only [step] at h
    split at h
    · simp only [Option.some.injEq] at h; subst h
      constructor <;> simp [lastEnd]
    · simp at h
  | leave k n =>
    simp only [step] at h
    split at h
    · rename_i hk
      simp only [Option.map_eq_some_iff] at h
      obtain ⟨j, hj, rfl⟩ := h
      obtain ⟨hsch, -⟩ := I.run hk.2
      simp only [Periodic.step] at hj
      split at hj
      · simp only [Option.some.injEq] at hj; subst hj
        have hd : s.due = [] := List.length_eq_zero_iff.1 (by rw [I.len]; omega)
        have hc : true ∉ s.ij.chan := List.count_eq_zero.1 (by omega)
        have := toNat_longest (every := every) (jitter := jitter) (n := n) hk.1
        refine ⟨?_, fun e he hp => by simp only [Ij.tick] at hp; omega, fun e he hm => absurd hm hc, fun e he hp => by dsimp only at hp; omega⟩
        intro e he d hmem
        simp only [lastEnd, Option.some.injEq] at he; subst he
        simp only [hd, List.nil_append, List.mem_singleton, S.dueAt] at hmem; subst hmem
        omega
      · omega
    · simp at h
  | pass d =>
    simp only [step, Option.some.injEq] at h; subst h
    exact ⟨L.due, L.push, L.take, L.call⟩
  | does l =>
    cases l with
    | handle o =>
      cases o <;> simp only [step] at h
      · split at h
        · simp at h
        · simp only [Option.map_eq_some_iff] at h
          obtain ⟨j, hj, rfl⟩ := h
          simp only [Periodic.step] at hj
          split at hj
          · split at hj
            · simp only [Option.some.injEq] at hj; subst hj
              exact ⟨L.due, L.push, L.take, fun e he hp => L.call e he (by dsimp only at hp; omega)⟩
            · simp at hj
          · simp at hj
      · simp at h
      · split at h
        · rename_i hr
          simp only [Option.map_eq_some_iff] at h
          obtain ⟨j, hj, rfl⟩ := h
          obtain ⟨hsch, -⟩ := I.run hr
          simp only [Periodic.step] at hj
          split at hj
          · simp only [Option.some.injEq] at hj; subst hj
            have hd : s.due = [] := List.length_eq_zero_iff.1 (by rw [I.len]; omega)
            have hc : true ∉ s.ij.chan := List.count_eq_zero.1 (by omega)
            exact ⟨fun e he d hm => by simp [hd] at hm, fun e he hp => by dsimp only at hp; omega, fun e he hm => absurd hm hc, fun e he hp => by dsimp only at hp; omega⟩
          · omega
        · simp at h
    | start => simp [step] at h
    | fire => simp [step] at h
    | cancel =>
      simp only [step] at h
      simp only [Option.map_eq_some_iff] at h
      obtain ⟨j, hj, rfl⟩ := h
      simp only [Periodic.step] at hj
      split at hj
      · simp only [Option.some.injEq] at hj; subst hj
        exact ⟨fun e he d hd => L.due e he d (List.mem_of_mem_dropLast hd), L.push, L.take, L.call⟩
      · simp at hj
    | push =>
      simp only [step, Option.map_eq_some_iff, Periodic.step] at h
      obtain ⟨j, hj, rfl⟩ := h
      split at hj
      · rename_i hc
        simp only [Option.some.injEq] at hj; subst hj
        have hm : s.moved { s.ij with pushing := s.ij.pushing - 1, chan := s.ij.chan ++ [true] } = s.now := by
          unfold S.moved; rw [if_neg]; simp only [Prod.mk.injEq]; omega
        have := T.push hc.1
        refine ⟨L.due, fun e he hp => ?_, fun e he _ => ?_, fun e he hp => ?_⟩
        · dsimp only at hp; omega
        · dsimp only; rw [hm]; have := L.push e he hc.1; omega
        · dsimp only at hp; omega
      · simp at hj
    | quit =>
      simp only [step, Option.map_eq_some_iff, Periodic.step] at h
      obtain ⟨j, hj, rfl⟩ := h
      split at hj
      · rename_i hc
        simp only [Option.some.injEq] at hj; subst hj
        have hn : true ∉ s.ij.chan := List.count_eq_zero.1 (by omega)
        exact ⟨L.due, fun e he hp => by dsimp only at hp; omega, fun e he hm => absurd hm hn, fun e he hp => by dsimp only at hp; omega⟩
      · simp at hj
    | take =>
      simp only [step, Option.map_eq_some_iff, Periodic.step] at h
      obtain ⟨j, hj, rfl⟩ := h
      split at hj
      · split at hj
        · rename_i rest hc
          simp only [Option.some.injEq] at hj; subst hj
          rw [hc] at one
          simp only [List.count_cons, beq_self_eq_true, if_true] at one
          have hn : true ∉ rest := List.count_eq_zero.1 (by omega)
          have hmem : true ∈ s.ij.chan := by rw [hc]; simp
          have hm : s.moved { s.ij with chan := rest, sched := if s.ij.revoked then s.ij.sched else s.ij.sched + 1 } = s.now := by
            unfold S.moved; rw [if_neg]; simp only [Prod.mk.injEq, hc, List.count_cons, beq_self_eq_true, if_true]; omega
          have := T.take hmem
          refine ⟨L.due, fun e he hp => by dsimp only at hp; omega, fun e he hx => absurd hx hn, fun e he _ => ?_⟩
          dsimp only; rw [hm]; have := L.take e he hmem; omega
        · rename_i rest hc
          simp only [Option.some.injEq] at hj; subst hj
          have hm : s.moved { s.ij with chan := rest } = s.mark := by
            unfold S.moved; rw [if_pos]; simp [hc]
          refine ⟨L.due, fun e he hp => ?_, fun e he hx => ?_, fun e he hp => ?_⟩
          · dsimp only at hp ⊢; rw [hm]; exact L.push e he hp
          · dsimp only at hx ⊢; rw [hm]; exact L.take e he (by rw [hc]; exact List.mem_cons_of_mem _ hx)
          · dsimp only at hp ⊢; rw [hm]; exact L.call e he hp
        · simp at hj
      · simp at hj
    | other =>
      simp only [step, Option.map_eq_some_iff, Periodic.step] at h
      obtain ⟨j, hj, rfl⟩ := h
      split at hj
      · simp only [Option.some.injEq] at hj; subst hj
        have hm : s.moved { s.ij with chan := s.ij.chan ++ [false] } = s.mark := by
          unfold S.moved; rw [if_pos]; simp [List.count_append]
        refine ⟨L.due, fun e he hp => ?_, fun e he hx => ?_, fun e he hp => ?_⟩
        · dsimp only at hp ⊢; rw [hm]; exact L.push e he hp
        · dsimp only at hx ⊢; rw [hm]; exact L.take e he (by simpa using hx)
        · dsimp only at hp ⊢; rw [hm]; exact L.call e he hp
      · simp at hj
    | _ =>
      simp only [step, Option.map_eq_some_iff, Periodic.step] at h
      obtain ⟨j, hj, rfl⟩ := h
      (try split at hj) <;>
        first
        | (simp at hj; done)
        | (simp only [Option.some.injEq] at hj; subst hj
           refine ⟨L.due, ?_, ?_, ?_⟩ <;> simp only [S.moved, if_true]
           · exact L.push
           · exact L.take
           · exact L.call)

theorem run_snoc (l : Label) : ∀ (ls : List Label) (a : S), run every jitter a (ls ++ [l]) = (run every jitter a ls).bind fun b => step every jitter b l := by
  intro ls
  induction ls with
  | nil => intro a; simp [run]
  | cons x ls ih => intro a; simp only [List.cons_append, run, ih, Option.bind_assoc]

theorem prompt_prefix {ls : List Label} (P : Spec.Prompt every jitter lt (ls ++ [l])) : Spec.Prompt every jitter lt ls := by
  intro n t ht
  by_cases hn : n ≤ ls.length
  · exact P n t (by rw [List.take_append_of_le_length hn]; exact ht)
  · refine P ls.length t ?_
    rw [List.take_append_of_le_length (Nat.le_refl _), List.take_length]
    rw [List.take_of_length_le (by omega)] at ht; exact ht

theorem late_run {ls : List Label} (h : run every jitter S.init ls = some s) (P : Spec.Prompt every jitter lt ls) : Late every jitter lt s := by
  induction ls using List.reverseRecOn generalizing s with
  | nil => simp only [run, Option.some.injEq] at h; subst h; exact late_init
  | append_singleton ls l ih =>
    rw [run_snoc, Option.bind_eq_some_iff] at h
    obtain ⟨c, h1, h2⟩ := h
    have P' := prompt_prefix P
    exact late_step (inv_run inv_init h1) (P' ls.length c (by rw [List.take_length]; exact h1)) (ih h1 P') h2

/-- A check of `InTime`. -/
def inTimeB (lt : Spec.Lat) (s : S) : Bool :=
  s.due.all (fun d => decide (s.now ≤ d + lt.timer)) && decide (0 < s.ij.pushing → s.now ≤ s.mark + lt.push) && decide (true ∈ s.ij.chan → s.now ≤ s.mark + lt.take) &&
    decide (0 < s.ij.sched → s.running = false → s.now ≤ s.mark + lt.call)

theorem prompt_of_check {ls : List Label} (h : (List.range (ls.length + 1)).all (fun n => ((run every jitter S.init (ls.take n)).all (inTimeB lt))) = true) :
    Spec.Prompt every jitter lt ls := by
  have key : ∀ n ≤ ls.length, ∀ t, run every jitter S.init (ls.take n) = some t → Spec.InTime lt t := by
    intro n hn t ht
    have := List.all_eq_true.1 h n (List.mem_range.2 (by omega))
    rw [ht] at this
    simp only [Option.all_some, inTimeB, Bool.and_eq_true, List.all_eq_true, decide_eq_true_eq] at this
    exact ⟨this.1.1.1, this.1.1.2, this.1.2, this.2⟩
  intro n t ht
  by_cases hn : n ≤ ls.length
  · exact key n hn t ht
  · exact key ls.length (Nat.le_refl _) t (by rw [List.take_length]; rwa [List.take_of_length_le (by omega)] at ht)

/-- The steps of the untimed interjection in a run. -/
theorem to_periodic {ls : List Label} (h : run every jitter s ls = some s') (hl : .does (.handle .incomplete) ∉ ls) :
    ∃ ls', Periodic.run s.ij ls' = some s'.ij ∧ .handle .incomplete ∉ ls' := by
  induction ls generalizing s with
  | nil => simp only [run, Option.some.injEq] at h; subst h; exact ⟨[], rfl, by simp⟩
  | cons l ls ih =>
    simp only [run, Option.bind_eq_some_iff] at h
    obtain ⟨c, h1, h2⟩ := h
    simp only [List.mem_cons, not_or] at hl
    obtain ⟨ls', h3, h4⟩ := ih h2 hl.2
    have key : c.ij = s.ij ∨ ∃ l', Periodic.step s.ij l' = some c.ij ∧ l' ≠ .handle .incomplete := by
      cases l with
      | does l =>
        have hne : l ≠ .handle .incomplete := fun e => hl.1 (by rw [e])
        cases l with
        | handle o =>
          cases o <;> simp only [step] at h1
          · split at h1
            · simp at h1
            · simp only [Option.map_eq_some_iff] at h1; obtain ⟨j, hj, rfl⟩ := h1; exact .inr ⟨_, hj, hne⟩
          · simp at h1
          · exact absurd rfl hne
        | _ =>
          simp only [step] at h1
          first
          | (simp at h1; done)
          | (simp only [Option.map_eq_some_iff] at h1; obtain ⟨j, hj, rfl⟩ := h1; exact .inr ⟨_, hj, hne⟩)
      | _ =>
        simp only [step] at h1
        (repeat' split at h1) <;>
          first
          | (simp at h1; done)
          | (simp only [Option.map_eq_some_iff] at h1; obtain ⟨j, hj, rfl⟩ := h1; exact .inr ⟨_, hj, by simp⟩)
          | (simp only [Option.some.injEq] at h1; subst h1; exact .inl rfl)
    rcases key with e | ⟨l', e, hne⟩
    · exact ⟨ls', by rw [← e]; exact h3, h4⟩
    · refine ⟨l' :: ls', by simp only [Periodic.run, e, Option.bind_some]; exact h3, ?_⟩
      simp only [List.mem_cons, not_or]; exact ⟨fun x => hne x.symm, h4⟩

end Verif.Cadence
