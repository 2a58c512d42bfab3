import Verif.Cadence.Spec
import Verif.Props.Periodic
/-
The invariants behind C101: where the activation is and what that says about the clock.
-/
namespace Verif.Cadence
open Verif.Periodic

set_option linter.unusedSimpArgs false
set_option linter.unreachableTactic false
set_option linter.unusedTactic false

variable {every jitter : Int} {s s' : S} {l : Label}

/-- The end of the last call, or the first tick, when no call is under way. -/
def lastEnd : List Ev → Option Nat
  | .started e :: _ => some e
  | .ended e :: _ => some e
  | _ => none

theorem step_ij (h : step every jitter s l = some s') : s'.ij = s.ij ∨ ∃ l', Periodic.step s.ij l' = some s'.ij := by
  cases l with
  | start k n =>
    simp only [step] at h; split at h
    · simp only [Option.map_eq_some_iff] at h; obtain ⟨j, hj, rfl⟩ := h; exact .inr ⟨_, hj⟩
    · simp at h
  | expire i =>
    simp only [step] at h; split at h
    · split at h
      · simp only [Option.map_eq_some_iff] at h; obtain ⟨j, hj, rfl⟩ := h; exact .inr ⟨_, hj⟩
      · simp at h
    · simp at h
  | enter =>
    simp only [step] at h; split at h
    · simp only [Option.some.injEq] at h; subst h; exact .inl rfl
    · simp at h
  | leave k n =>
    simp only [step] at h; split at h
    · simp only [Option.map_eq_some_iff] at h; obtain ⟨j, hj, rfl⟩ := h; exact .inr ⟨_, hj⟩
    · simp at h
  | pass d => simp only [step, Option.some.injEq] at h; subst h; exact .inl rfl
  | does l =>
    right
    cases l with
    | handle o =>
      cases o <;> simp only [step] at h
      · split at h
        · simp at h
        · simp only [Option.map_eq_some_iff] at h; obtain ⟨j, hj, rfl⟩ := h; exact ⟨_, hj⟩
      · simp at h
      · split at h
        · simp only [Option.map_eq_some_iff] at h; obtain ⟨j, hj, rfl⟩ := h; exact ⟨_, hj⟩
        · simp at h
    | _ =>
      simp only [step] at h
      first
      | (simp at h; done)
      | (simp only [Option.map_eq_some_iff] at h; obtain ⟨j, hj, rfl⟩ := h; exact ⟨_, hj⟩)

theorem toNat_shortest {k n : Nat} (hk : k < 2 ^ 53) : Spec.shortest every jitter ≤ (timerDuration every jitter k n).toNat := by
  have := C59_delay every jitter k n hk
  unfold Spec.shortest; omega

theorem toNat_longest {k n : Nat} (hk : k < 2 ^ 53) : (timerDuration every jitter k n).toNat ≤ Spec.longest every jitter := by
  have := C59_delay every jitter k n hk
  unfold Spec.longest; omega

/-- What holds in every state. -/
structure Inv (every jitter : Int) (s : S) : Prop where
  good : Good s.ij
  len : s.due.length = s.ij.timers
  run : s.running = true → 0 < s.ij.sched ∧ ∃ b r, s.hist = .began b :: r ∧ b ≤ s.now
  idle : s.running = false → s.ij.started = true → ∃ e, lastEnd s.hist = some e
  fresh : s.ij.started = false → s.hist = [] ∧ s.running = false
  spaced : Spec.Spaced (Spec.shortest every jitter) s.hist
  le : ∀ e, lastEnd s.hist = some e → e ≤ s.now
  due : ∀ e, lastEnd s.hist = some e → ∀ d ∈ s.due, e + Spec.shortest every jitter ≤ d
  on : ∀ e, lastEnd s.hist = some e → 0 < s.ij.pushing + s.ij.chan.count true + s.ij.sched → e + Spec.shortest every jitter ≤ s.now

theorem inv_init : Inv every jitter S.init := by
  constructor <;> simp [S.init, Ij.init, lastEnd, Spec.Spaced, good_init]
  exact good_init

theorem spaced_end {g b t : Nat} {r : List Ev} (h : Spec.Spaced g (.began b :: r)) (hb : b ≤ t) : Spec.Spaced g (.ended t :: .began b :: r) := by
  simp only [Spec.Spaced]; exact ⟨hb, h⟩

theorem spaced_begin {g t e : Nat} {h : List Ev} (hs : Spec.Spaced g h) (he : lastEnd h = some e) (hb : e + g ≤ t) : Spec.Spaced g (.began t :: h) := by
  cases h with
  | nil => simp [lastEnd] at he
  | cons a r =>
    cases a <;> simp only [lastEnd, Option.some.injEq, reduceCtorEq] at he <;> subst he <;> simp only [Spec.Spaced] <;> exact ⟨hb, hs⟩

theorem inFlight_of (G : Good s.ij) : s.ij.timers + s.ij.pushing + s.ij.chan.count true + s.ij.sched + s.ij.pend ≤ 1 := G.one

theorem started_of (G : Good s.ij) (h : 0 < s.ij.timers + s.ij.pushing + s.ij.chan.count true + s.ij.sched + s.ij.pend) : s.ij.started = true := by
  cases hs : s.ij.started with
  | true => rfl
  | false => have := (G.fresh hs).1; unfold Spec.inFlight at this; omega

/-- The steps that neither arm nor expire a timer, nor begin or end a call: the activation moves on. -/
theorem quiet (h : Periodic.step s.ij l' = some j)
    (hl : l' = .push ∨ l' = .quit ∨ l' = .other ∨ l' = .take ∨ l' = .revoke ∨ l' = .stop ∨ l' = .async) :
    j.timers = s.ij.timers ∧ j.started = s.ij.started ∧ (s.running = true → 0 < s.ij.sched → 0 < j.sched) ∧
      j.pushing + j.chan.count true + j.sched ≤ s.ij.pushing + s.ij.chan.count true + s.ij.sched := by
  rcases hl with rfl | rfl | rfl | rfl | rfl | rfl | rfl <;> simp only [Periodic.step] at h <;> (repeat' split at h) <;>
    first
    | (simp at h; done)
    | (simp only [Option.some.injEq] at h; subst h
       refine ⟨rfl, rfl, fun _ => ?_, ?_⟩ <;> simp_all <;> omega)

theorem inv_step (I : Inv every jitter s) (h : step every jitter s l = some s') : Inv every jitter s' := by
  have G' : Good s'.ij := by
    rcases step_ij h with e | ⟨l', e⟩
    · rw [e]; exact I.good
    · exact good_step I.good e
  have one := inFlight_of I.good
  cases l with
  | start k n =>
    simp only [step] at h
    split at h
    · rename_i hk
      simp only [Option.map_eq_some_iff] at h
      obtain ⟨j, hj, rfl⟩ := h
      simp only [Periodic.step] at hj
      split at hj
      · simp at hj
      rename_i hs
      simp only [Option.some.injEq] at hj; subst hj
      have hf := I.fresh (by simpa using hs)
      have h0 := (I.good.fresh (by simpa using hs)).1
      unfold Spec.inFlight at h0
      have hd : s.due = [] := List.length_eq_zero_iff.1 (by rw [I.len]; omega)
      have := toNat_shortest (every := every) (jitter := jitter) (n := n) hk
      constructor <;> simp_all [lastEnd, Ij.tick, Spec.Spaced, S.dueAt]
    · simp at h
  | expire i =>
    simp only [step] at h
    split at h
    · rename_i d hd
      split at h
      · rename_i hle
        simp only [Option.map_eq_some_iff] at h
        obtain ⟨j, hj, rfl⟩ := h
        simp only [Periodic.step] at hj
        split at hj
        · rename_i ht
          simp only [Option.some.injEq] at hj; subst hj
          have hi : i < s.due.length := (List.getElem?_eq_some_iff.1 hd).1
          have hmem : d ∈ s.due := List.mem_of_getElem? hd
          refine ⟨G', ?_, fun hr => ⟨(I.run hr).1, (I.run hr).2⟩, I.idle, I.fresh, I.spaced, I.le, fun e he x hx => I.due e he x (List.mem_of_mem_eraseIdx hx), fun e he _ => ?_⟩
          · simp only [List.length_eraseIdx_of_lt hi, I.len]
          · have := I.due e he d hmem; dsimp only; omega
        · simp at hj
      · simp at h
    · simp at h
  | enter =>
    simp only [step] at h
    split at h
    · rename_i hc
      simp only [Option.some.injEq] at h; subst h
      obtain ⟨e, he⟩ := I.idle hc.2 (started_of I.good (by omega))
      have := I.on e he (by omega)
      refine ⟨G', I.len, fun _ => ⟨hc.1, _, _, rfl, Nat.le_refl _⟩, by simp, fun hs => ?_, spaced_begin I.spaced he this, by simp [lastEnd], by simp [lastEnd], by simp [lastEnd]⟩
      have := started_of I.good (by omega); simp_all
    · simp at h
  | leave k n =>
    simp only [step] at h
    split at h
    · rename_i hk
      simp only [Option.map_eq_some_iff] at h
      obtain ⟨j, hj, rfl⟩ := h
      obtain ⟨hsch, b, r, hh, hb⟩ := I.run hk.2
      simp only [Periodic.step] at hj
      split at hj
      · simp only [Option.some.injEq] at hj; subst hj
        have hd : s.due = [] := List.length_eq_zero_iff.1 (by rw [I.len]; omega)
        have hst := started_of I.good (by omega)
        have := toNat_shortest (every := every) (jitter := jitter) (n := n) hk.1
        refine ⟨G', ?_, by simp, fun _ _ => ⟨_, rfl⟩, fun hs => by simp [Ij.tick, hst] at hs, ?_, ?_, ?_, ?_⟩
        · simp [hd, Ij.tick]; omega
        · dsimp only; rw [hh]; exact spaced_end (by rw [← hh]; exact I.spaced) hb
        · intro e he; simp only [lastEnd, Option.some.injEq] at he; subst he; exact Nat.le_refl _
        · intro e he d hmem
          simp only [lastEnd, Option.some.injEq] at he; subst he
          simp only [hd, List.nil_append, List.mem_singleton, S.dueAt] at hmem; subst hmem
          omega
        · intro e he hp; simp only [Ij.tick] at hp; omega
      · omega
    · simp at h
  | pass d =>
    simp only [step, Option.some.injEq] at h; subst h
    refine ⟨G', I.len, fun hr => ?_, I.idle, I.fresh, I.spaced, fun e he => ?_, I.due, fun e he hp => ?_⟩
    · obtain ⟨h1, b, r, h2, h3⟩ := I.run hr; exact ⟨h1, b, r, h2, by dsimp only; omega⟩
    · have := I.le e he; dsimp only; omega
    · have := I.on e he hp; dsimp only; omega
  | does l =>
    have quietly : ∀ j, Periodic.step s.ij l = some j → s' = { s with ij := j, mark := s.moved j } →
        (l = .push ∨ l = .quit ∨ l = .other ∨ l = .take ∨ l = .revoke ∨ l = .stop ∨ l = .async) → Inv every jitter s' := by
      rintro j hj rfl hl
      obtain ⟨q1, q2, q3, q4⟩ := quiet (s := s) hj hl
      refine ⟨G', by dsimp only; rw [q1]; exact I.len, fun hr => ⟨q3 hr (I.run hr).1, (I.run hr).2⟩, fun hr hs => I.idle hr (by rw [← q2]; exact hs),
        fun hs => I.fresh (by rw [← q2]; exact hs), I.spaced, I.le, I.due, fun e he hp => I.on e he (by dsimp only at hp; omega)⟩
    cases l with
    | handle o =>
      cases o <;> simp only [step] at h
      · split at h
        · simp at h
        · rename_i hr
          simp only [Option.map_eq_some_iff] at h
          obtain ⟨j, hj, rfl⟩ := h
          simp only [Periodic.step] at hj
          split at hj
          · split at hj
            · simp only [Option.some.injEq] at hj; subst hj
              exact ⟨G', I.len, fun h => absurd h hr, I.idle, I.fresh, I.spaced, I.le, I.due, fun e he hp => I.on e he (by dsimp only at hp; omega)⟩
            · simp at hj
          · simp at hj
      · simp at h
      · split at h
        · rename_i hr
          simp only [Option.map_eq_some_iff] at h
          obtain ⟨j, hj, rfl⟩ := h
          obtain ⟨hsch, b, r, hh, hb⟩ := I.run hr
          simp only [Periodic.step] at hj
          split at hj
          · simp only [Option.some.injEq] at hj; subst hj
            have hd : s.due = [] := List.length_eq_zero_iff.1 (by rw [I.len]; omega)
            have hst := started_of I.good (by omega)
            refine ⟨G', I.len, by simp, fun _ _ => ⟨_, rfl⟩, fun hs => by simp [hst] at hs, ?_, ?_, ?_, ?_⟩
            · dsimp only; rw [hh]; exact spaced_end (by rw [← hh]; exact I.spaced) hb
            · intro e he; simp only [lastEnd, Option.some.injEq] at he; subst he; exact Nat.le_refl _
            · intro e he d hmem; simp [hd] at hmem
            · intro e he hp; dsimp only at hp; omega
          · omega
        · simp at h
    | cancel =>
      simp only [step] at h
      simp only [Option.map_eq_some_iff] at h
      obtain ⟨j, hj, rfl⟩ := h
      simp only [Periodic.step] at hj
      split at hj
      · simp only [Option.some.injEq] at hj; subst hj
        exact ⟨G', by simp [I.len], I.run, I.idle, I.fresh, I.spaced, I.le, fun e he d hd => I.due e he d (List.mem_of_mem_dropLast hd), I.on⟩
      · simp at hj
    | start => simp [step] at h
    | fire => simp [step] at h
    | _ =>
      simp only [step, Option.map_eq_some_iff] at h
      obtain ⟨j, hj, rfl⟩ := h
      exact quietly j hj rfl (by simp)

theorem inv_run {ls : List Label} (I : Inv every jitter s) (h : run every jitter s ls = some s') : Inv every jitter s' := by
  induction ls generalizing s with
  | nil => simp only [run, Option.some.injEq] at h; subst h; exact I
  | cons l ls ih =>
    simp only [run, Option.bind_eq_some_iff] at h
    obtain ⟨c, h1, h2⟩ := h
    exact ih (inv_step I h1) h2

end Verif.Cadence
