import Verif.Shutdown.Model
import Mathlib.Tactic.Common
/-
Properties C64 (waiting for the end) and C68 (failing): `streams/event_source.go`, `streams/eos_producer.go`, `streams/source.go`.
-/
namespace Verif.Shutdown
open Verif.Config (ErrorResponse)
set_option linter.unusedSimpArgs false
set_option linter.unreachableTactic false
set_option linter.unusedTactic false

/-- The steps that happen by themselves: no call of the user, no error of Kafka. -/
def Spec.Internal (l : Label) : Prop :=
  l = .caught ∨ l = .left ∨ l = .stopHalt ∨ l = .stopTell ∨ l = .nowHalt ∨ l = .nowClose ∨ l = .nowTell ∨ l = .wake

/-- Nothing happens by itself any more. -/
def Spec.Quiet (s : Src) : Prop := ∀ l, Spec.Internal l → step s l = none

/-- Someone asked the event source to stop: a call of `Stop` or `StopNow`, or an error that closes the consumer. -/
def Spec.asked (ls : List Label) : Prop := .stop ∈ ls ∨ .now ∈ ls ∨ .caught ∈ ls

/-- The invariant: `asked` is whether a stop was asked for, `bad` whether an error was answered with something other than `Continue`. -/
structure Good (s : Src) (asked bad : Prop) : Prop where
  sent : s.released + (if s.token then 1 else 0) = s.sent
  few : s.sent ≤ s.nows + (if s.stopper = .over then 1 else 0)
  one : s.stopper = .over ∨ 0 < s.nows → 0 < s.sent
  ask : asked ↔ s.stopper ≠ .off ∨ 0 < s.now0 + s.now1 + s.now2 + s.nows
  hlt : s.stopper = .telling ∨ s.stopper = .over ∨ 0 < s.now1 + s.now2 + s.nows → s.halted = true
  cls : s.stopper = .halting ∨ s.stopper = .telling ∨ s.stopper = .over ∨ 0 < s.now2 + s.nows → s.clientClosed = true
  hl : s.healthy = false ↔ bad
  lp : s.loop ≠ .running → s.healthy = false
  wt : s.watching = false → asked
  wl : s.watching = true → s.loop = .running ∨ ∃ r, s.loop = .failing r
  bd : bad → s.watching = true → s.loop ≠ .running
  fc : ∀ r, s.loop = .failing r → r ≠ .continue

theorem good_init : Good Src.init False False := by
  constructor <;> simp [Src.init]

theorem good_step {s s' : Src} {l : Label} {a b : Prop} (G : Good s a b) (h : step s l = some s') :
    Good s' (a ∨ l = .stop ∨ l = .now ∨ l = .caught) (b ∨ ∃ r, l = .err r ∧ r ≠ .continue) := by
  obtain ⟨h1, h2, h3, h4, h5, h6, h7, h8, h9, h10, h11, h12⟩ := G
  unfold step at h
  split at h
  · simp at h
  · rename_i hp
    cases l with
    | err r =>
      simp only at h
      split at h
      · rename_i hr
        split at h
        · rename_i hc
          simp only [Option.some.injEq] at h; subst h
          have e : (b ∨ ∃ r', Label.err r = .err r' ∧ r' ≠ .continue) ↔ b := by simp [hc]
          have e2 : (a ∨ Label.err r = .stop ∨ Label.err r = .now ∨ Label.err r = .caught) ↔ a := by simp
          rw [e, e2]
          exact ⟨h1, h2, h3, h4, h5, h6, h7, h8, h9, h10, h11, h12⟩
        · rename_i hc
          simp only [Option.some.injEq] at h; subst h
          refine ⟨h1, h2, h3, by simpa using h4, h5, h6, by simp [hc], by simp, fun h => .inl (h9 h), fun _ => .inr ⟨r, rfl⟩, by simp, ?_⟩
          intro r' hr'
          simp only [Loop.failing.injEq] at hr'; subst hr'; exact hc
      · simp at h
    | caught =>
      simp only at h
      split at h
      · rename_i r hr
        split at h
        · rename_i hw
          simp only [Option.some.injEq] at h; subst h
          have hh : s.healthy = false := h8 (by rw [hr]; simp)
          refine ⟨h1, h2, h3, ?_, h5, h6, by simpa using h7, fun _ => hh, by simp, by simp, by simp, ?_⟩
          · simp only [true_or, or_true, true_iff]; right; omega
          · intro r' hr'
            cases r <;> simp at hr'
        · simp at h
      · simp at h
    | stop =>
      simp only at h
      split at h
      · rename_i ho
        simp only [Option.some.injEq] at h; subst h
        simp only [ho] at *
        exact ⟨h1, by simpa using h2, by simpa using h3, by simp, by simpa using h5, by simpa using h6, by simpa using h7, h8, by simp, h10, by simpa using h11, h12⟩
      · rename_i ho
        simp only [Option.some.injEq] at h; subst h
        exact ⟨h1, h2, h3, by simp [ho], h5, h6, by simpa using h7, h8, by simp, h10, by simpa using h11, h12⟩
    | left =>
      simp only at h
      split at h
      · rename_i ho
        simp only [Option.some.injEq] at h; subst h
        simp only [ho] at *
        exact ⟨h1, by simpa using h2, by simpa using h3, by simpa using h4, by simpa using h5, fun _ => rfl, by simpa using h7, h8, by simpa using h9, h10, by simpa using h11, h12⟩
      · simp at h
    | stopHalt =>
      simp only at h
      split at h
      · rename_i ho
        simp only [Option.some.injEq] at h; subst h
        simp only [ho] at *
        exact ⟨h1, by simpa using h2, by simpa using h3, by simpa using h4, fun _ => rfl, by simpa using h6, by simpa using h7, h8, by simpa using h9, h10, by simpa using h11, h12⟩
      · simp at h
    | stopTell =>
      simp only at h
      split at h
      · rename_i ho
        simp only [Option.some.injEq] at h; subst h
        simp only [ho] at *
        unfold Src.tell
        by_cases ht : s.token = true
        · simp only [ht, if_true] at *
          refine ⟨by simpa [ht] using h1, by simp at h2 ⊢; omega, fun _ => by dsimp only; omega, by simpa using h4, by simpa using h5, by simpa using h6, by simpa using h7, h8, by simpa using h9, h10, by simpa using h11, h12⟩
        · simp only [ht] at *
          refine ⟨by simp at h1 ⊢; omega, by simp at h2 ⊢; omega, fun _ => by simp, by simpa using h4, by simpa using h5, by simpa using h6, by simpa using h7, h8, by simpa using h9, h10, by simpa using h11, h12⟩
      · simp at h
    | now =>
      simp only [Option.some.injEq] at h; subst h
      exact ⟨h1, h2, h3, by simp; right; omega, h5, h6, by simpa using h7, h8, by simp, h10, by simpa using h11, h12⟩
    | nowHalt =>
      simp only at h
      split at h
      · rename_i ho
        simp only [Option.some.injEq] at h; subst h
        refine ⟨h1, h2, h3, ?_, fun _ => rfl, h6, by simpa using h7, h8, by simpa using h9, h10, by simpa using h11, h12⟩
        simp only [reduceCtorEq, or_false]
        rw [h4]
        have : (0 < s.now0 + s.now1 + s.now2 + s.nows) ↔ (0 < s.now0 - 1 + (s.now1 + 1) + s.now2 + s.nows) := by omega
        rw [this]
      · simp at h
    | nowClose =>
      simp only at h
      split at h
      · rename_i ho
        simp only [Option.some.injEq] at h; subst h
        refine ⟨h1, h2, h3, ?_, fun _ => h5 (by omega), fun _ => rfl, by simpa using h7, h8, by simpa using h9, h10, by simpa using h11, h12⟩
        simp only [reduceCtorEq, or_false]
        rw [h4]
        have : (0 < s.now0 + s.now1 + s.now2 + s.nows) ↔ (0 < s.now0 + (s.now1 - 1) + (s.now2 + 1) + s.nows) := by omega
        rw [this]
      · simp at h
    | nowTell =>
      simp only at h
      split at h
      · rename_i ho
        simp only [Option.some.injEq] at h; subst h
        have hh : s.halted = true := h5 (by omega)
        have hc : s.clientClosed = true := h6 (by omega)
        have e4 : (a ∨ Label.nowTell = .stop ∨ Label.nowTell = .now ∨ Label.nowTell = .caught) ↔
            s.stopper ≠ .off ∨ 0 < s.now0 + s.now1 + (s.now2 - 1) + (s.nows + 1) := by
          simp only [reduceCtorEq, or_false]
          rw [h4]
          have : (0 < s.now0 + s.now1 + s.now2 + s.nows) ↔ (0 < s.now0 + s.now1 + (s.now2 - 1) + (s.nows + 1)) := by omega
          rw [this]
        unfold Src.tell
        by_cases ht : s.token = true
        · simp only [ht, if_true] at *
          refine ⟨by simpa [ht] using h1, by dsimp only; omega, fun _ => by dsimp only; omega, e4, fun _ => hh, fun _ => hc, by simpa using h7, h8, by simpa using h9, h10, by simpa using h11, h12⟩
        · simp only [ht] at *
          refine ⟨by simp at h1 ⊢; omega, by simp at h2 ⊢; omega, fun _ => by simp, e4, fun _ => hh, fun _ => hc, by simpa using h7, h8, by simpa using h9, h10, by simpa using h11, h12⟩
      · simp at h
    | wait =>
      simp only [Option.some.injEq] at h; subst h
      exact ⟨h1, h2, h3, by simpa using h4, h5, h6, by simpa using h7, h8, by simpa using h9, h10, by simpa using h11, h12⟩
    | wake =>
      simp only at h
      split at h
      · rename_i ho
        simp only [Option.some.injEq] at h; subst h
        rw [if_pos ho.1] at h1
        exact ⟨by simpa using h1, h2, h3, by simpa using h4, h5, h6, by simpa using h7, h8, by simpa using h9, h10, by simpa using h11, h12⟩
      · simp at h

theorem good_run {ls : List Label} {s : Src} (h : run Src.init ls = some s) :
    Good s (Spec.asked ls) (∃ r, .err r ∈ ls ∧ r ≠ .continue) := by
  have key : ∀ (ls : List Label) (s s' : Src) (a b : Prop), Good s a b → run s ls = some s' →
      Good s' (a ∨ Spec.asked ls) (b ∨ ∃ r, .err r ∈ ls ∧ r ≠ .continue) := by
    intro ls
    induction ls with
    | nil => intro s s' a b G h; simp only [run, Option.some.injEq] at h; subst h; simpa [Spec.asked] using G
    | cons l ls ih =>
      intro s s' a b G h
      simp only [run, Option.bind_eq_some_iff] at h
      obtain ⟨s1, h1, h2⟩ := h
      have := ih s1 s' _ _ (good_step G h1) h2
      have e1 : ((a ∨ l = .stop ∨ l = .now ∨ l = .caught) ∨ Spec.asked ls) ↔ (a ∨ Spec.asked (l :: ls)) := by
        simp only [Spec.asked, List.mem_cons, eq_comm (a := l)]; tauto
      have e2 : ((b ∨ ∃ r, l = .err r ∧ r ≠ .continue) ∨ ∃ r, .err r ∈ ls ∧ r ≠ .continue) ↔ (b ∨ ∃ r, .err r ∈ l :: ls ∧ r ≠ .continue) := by
        constructor
        · rintro ((h | ⟨r, h, h'⟩) | ⟨r, h, h'⟩)
          · exact .inl h
          · exact .inr ⟨r, by rw [h]; simp, h'⟩
          · exact .inr ⟨r, List.mem_cons_of_mem _ h, h'⟩
        · rintro (h | ⟨r, h, h'⟩)
          · exact .inl (.inl h)
          · rcases List.mem_cons.mp h with h | h
            · exact .inl (.inr ⟨r, h.symm, h'⟩)
            · exact .inr ⟨r, h, h'⟩
      rw [e1, e2] at this
      exact this
  have := key ls _ _ _ _ good_init h
  simpa using this

/-- How much can still happen by itself. -/
def weight (s : Src) : Nat :=
  (if s.watching then 5 else 0) + (match s.stopper with | .leaving => 3 | .halting => 2 | .telling => 1 | _ => 0)
    + 3 * s.now0 + 2 * s.now1 + s.now2 + s.waiting

theorem tell_same (s : Src) : s.tell.watching = s.watching ∧ s.tell.stopper = s.stopper ∧ s.tell.now0 = s.now0 ∧ s.tell.now1 = s.now1 ∧
    s.tell.now2 = s.now2 ∧ s.tell.waiting = s.waiting := by
  unfold Src.tell; split <;> simp

theorem weight_step {s s' : Src} {l : Label} (hi : Spec.Internal l) (h : step s l = some s') : weight s' < weight s := by
  unfold step at h
  split at h
  · simp at h
  · obtain ⟨t1, t2, t3, t4, t5, t6⟩ := tell_same s
    rcases hi with rfl | rfl | rfl | rfl | rfl | rfl | rfl | rfl <;> simp only at h <;> (repeat' split at h) <;>
      first
      | (simp at h; done)
      | (simp only [Option.some.injEq] at h; subst h; simp_all [weight]; done)
      | (simp only [Option.some.injEq] at h; subst h; simp_all [weight]; omega)

/-- C64, C68. What happens by itself ends: no execution has more than `weight` internal steps in a row. -/
theorem C64_terminates {s s' : Src} {ls : List Label} (hi : ∀ l ∈ ls, Spec.Internal l) (h : run s ls = some s') :
    ls.length + weight s' ≤ weight s := by
  induction ls generalizing s with
  | nil => simp only [run, Option.some.injEq] at h; subst h; simp
  | cons l ls ih =>
    simp only [run, Option.bind_eq_some_iff] at h
    obtain ⟨s1, h1, h2⟩ := h
    have a := weight_step (hi l (by simp)) h1
    have b := ih (fun l hl => hi l (List.mem_cons_of_mem _ hl)) h2
    simp only [List.length_cons]; omega

/-- C64, in part: once a stop was asked for and everything that happens by itself has happened, the run status is halted, the client is closed, and at least
one goroutine waiting for the end was released, if one waited; unless the process ended with a panic. Missing: the other waiters, see `C64_violated`. -/
theorem C64_first_waiter_partial {ls : List Label} {s : Src} (h : run Src.init ls = some s) (ha : Spec.asked ls) (hq : Spec.Quiet s) :
    s.loop = .panicked ∨ (s.halted = true ∧ s.clientClosed = true ∧ (0 < s.released ∨ s.waiting = 0)) := by
  have G := good_run h
  by_cases hp : s.loop = .panicked
  · exact .inl hp
  · right
    have q : ∀ l, Spec.Internal l → step s l = none := hq
    have n0 : s.now0 = 0 := by
      have := q .nowHalt (by simp [Spec.Internal])
      simp only [step, hp, if_false] at this
      split at this <;> first | (simp at this; done) | omega
    have n1 : s.now1 = 0 := by
      have := q .nowClose (by simp [Spec.Internal])
      simp only [step, hp, if_false] at this
      split at this <;> first | (simp at this; done) | omega
    have n2 : s.now2 = 0 := by
      have := q .nowTell (by simp [Spec.Internal])
      simp only [step, hp, if_false] at this
      split at this <;> first | (simp at this; done) | omega
    have st : s.stopper = .off ∨ s.stopper = .over := by
      cases hs : s.stopper with
      | off => exact .inl rfl
      | over => exact .inr rfl
      | leaving => have := q .left (by simp [Spec.Internal]); simp [step, hp, hs] at this
      | halting => have := q .stopHalt (by simp [Spec.Internal]); simp [step, hp, hs] at this
      | telling => have := q .stopTell (by simp [Spec.Internal]); simp [step, hp, hs] at this
    have done : s.stopper = .over ∨ 0 < s.nows := by
      rcases G.ask.mp ha with h1 | h1
      · rcases st with h2 | h2
        · exact absurd h2 h1
        · exact .inl h2
      · right; omega
    refine ⟨G.hlt (by rcases done with h | h <;> [exact .inr (.inl h); exact .inr (.inr (by omega))]),
      G.cls (by rcases done with h | h <;> [exact .inr (.inr (.inl h)); exact .inr (.inr (.inr (by omega)))]), ?_⟩
    have hs := G.one done
    have := G.sent
    by_cases ht : s.token = true
    · rw [if_pos ht] at this
      by_cases hw : 0 < s.waiting
      · have := q .wake (by simp [Spec.Internal])
        simp [step, hp, ht, hw] at this
      · right; omega
    · rw [if_neg ht] at this; left; omega

/-- One waiter, `Stop`: quiet after the five steps, and the waiter is released. -/
example : ∃ s, run Src.init [.wait, .stop, .left, .stopHalt, .stopTell, .wake] = some s ∧ Spec.Quiet s ∧ s.released = 1 ∧ s.waiting = 0 := by
  refine ⟨_, rfl, ?_, rfl, rfl⟩
  rintro l (rfl | rfl | rfl | rfl | rfl | rfl | rfl | rfl) <;> decide

/-- C64. Exactly how many are released: never more than the finished calls of `StopNow` plus one for `Stop`, however often it is called. -/
theorem C64_count {ls : List Label} {s : Src} (h : run Src.init ls = some s) : s.released ≤ s.nows + 1 := by
  have G := good_run h
  have h1 := G.sent; have h2 := G.few
  split at h2 <;> omega

/-- C64 is violated: two goroutines wait, `Stop` ends, and one of them waits for ever, whatever happens later (more calls of `Stop`, more waiters), unless somebody
calls `StopNow` or an error comes up. -/
theorem C64_violated : ∃ ls s, run Src.init ls = some s ∧ s.stopper = .over ∧ s.halted = true ∧ s.released = 1 ∧ s.waiting = 1 ∧
    ∀ more s', (∀ l ∈ more, l ≠ .now ∧ l ≠ .caught) → run s more = some s' → s'.released = 1 ∧ 1 ≤ s'.waiting := by
  refine ⟨[.wait, .wait, .stop, .left, .stopHalt, .stopTell, .wake], _, rfl, rfl, rfl, rfl, rfl, ?_⟩
  have key : ∀ (more : List Label) (s s' : Src), s.stopper = .over → s.token = false → s.now0 = 0 → s.now1 = 0 → s.now2 = 0 → s.released = 1 → 1 ≤ s.waiting →
      (∀ l ∈ more, l ≠ .now ∧ l ≠ .caught) → run s more = some s' → s'.released = 1 ∧ 1 ≤ s'.waiting := by
    intro more
    induction more with
    | nil => intro s s' _ _ _ _ _ h6 h7 _ h; simp only [run, Option.some.injEq] at h; subst h; exact ⟨h6, h7⟩
    | cons l more ih =>
      intro s s' h1 h2 h3 h4 h5 h6 h7 hl h
      simp only [run, Option.bind_eq_some_iff] at h
      obtain ⟨s1, e1, e2⟩ := h
      have hl1 := hl l (by simp)
      have : s1.stopper = .over ∧ s1.token = false ∧ s1.now0 = 0 ∧ s1.now1 = 0 ∧ s1.now2 = 0 ∧ s1.released = 1 ∧ 1 ≤ s1.waiting := by
        unfold step at e1
        split at e1
        · simp at e1
        · cases l <;> simp only [h1, h2, h3, h4, h5] at e1 <;> (repeat' split at e1) <;>
            first
            | (simp at e1; done)
            | (simp at hl1; done)
            | (simp only [Option.some.injEq] at e1; subst e1; simp_all; done)
            | (simp only [Option.some.injEq] at e1; subst e1; simp_all; omega)
      obtain ⟨a1, a2, a3, a4, a5, a6, a7⟩ := this
      exact ih s1 s' a1 a2 a3 a4 a5 a6 a7 (fun l hm => hl l (List.mem_cons_of_mem _ hm)) e2
  exact fun more s' => key more _ s' rfl rfl rfl rfl rfl rfl (by decide)

/-- C68. The event source is unhealthy exactly if an error was answered with something other than `Continue`. -/
theorem C68_unhealthy {ls : List Label} {s : Src} (h : run Src.init ls = some s) :
    s.healthy = false ↔ ∃ r, .err r ∈ ls ∧ r ≠ .continue := (good_run h).hl

/-- C68. Once that has happened and everything that happens by itself has happened, the run status is halted, the client is closed, so that the partitions are
given up, and a goroutine waiting for the end is released; or the process ended with the panic that was asked for. -/
theorem C68_failure_stops {ls : List Label} {s : Src} (h : run Src.init ls = some s) (hb : ∃ r, .err r ∈ ls ∧ r ≠ .continue) (hq : Spec.Quiet s) :
    s.loop = .panicked ∨ (s.halted = true ∧ s.clientClosed = true ∧ (0 < s.released ∨ s.waiting = 0)) := by
  have G := good_run h
  by_cases hp : s.loop = .panicked
  · exact .inl hp
  · refine C64_first_waiter_partial h (G.wt ?_) hq
    cases hw : s.watching with
    | false => rfl
    | true =>
      have h1 := G.bd hb hw
      rcases G.wl hw with h2 | ⟨r, h2⟩
      · exact absurd h2 h1
      · have := hq .caught (by simp [Spec.Internal])
        simp [step, hp, h2, hw] at this

theorem run_append' (a b : List Label) : ∀ s : Src, run s (a ++ b) = (run s a).bind fun s' => run s' b := by
  induction a with
  | nil => intro s; rfl
  | cons l a ih =>
    intro s
    simp only [List.cons_append, run]
    cases step s l with
    | none => rfl
    | some s1 => exact ih s1

/-- Where the loop can be after an error answered with `r`. -/
def Spec.after (r : ErrorResponse) (l : Loop) : Prop :=
  l = .failing r ∨ (r = .failConsumer ∧ l = .returned) ∨ (r = .fatallyExit ∧ l = .panicked)

theorem after_run {r : ErrorResponse} (hr : r = .failConsumer ∨ r = .fatallyExit) {ls : List Label} : ∀ {s s' : Src}, Spec.after r s.loop → run s ls = some s' →
    Spec.after r s'.loop ∧ (∀ r', .err r' ∉ ls) ∧ (s'.loop = .failing r → s'.watching = s.watching) := by
  induction ls with
  | nil => intro s s' hl h; simp only [run, Option.some.injEq] at h; subst h; exact ⟨hl, by simp, fun _ => rfl⟩
  | cons l ls ih =>
    intro s s' hl h
    simp only [run, Option.bind_eq_some_iff] at h
    obtain ⟨s1, e1, e2⟩ := h
    have : Spec.after r s1.loop ∧ (∀ r', l ≠ .err r') ∧ (s1.loop = .failing r → s1.watching = s.watching) := by
      unfold step at e1
      obtain ⟨t1, t2, t3, t4, t5, t6⟩ := tell_same s
      have t7 : s.tell.loop = s.loop := by unfold Src.tell; split <;> rfl
      have t8 : s.tell.watching = s.watching := by unfold Src.tell; split <;> rfl
      unfold Spec.after at hl ⊢
      rcases hl with hl | ⟨hl', hl⟩ | ⟨hl', hl⟩ <;> rw [hl] at e1 <;> rcases hr with rfl | rfl <;>
        cases l <;> simp only [reduceCtorEq, if_false, if_true] at e1 <;> (repeat' split at e1) <;>
        first
        | (simp at e1; done)
        | (simp only [Option.some.injEq] at e1; subst e1; simp_all)
    obtain ⟨a, b, d⟩ := ih this.1 e2
    refine ⟨a, fun r' hm => ?_, fun e => ?_⟩
    · rcases List.mem_cons.mp hm with h | h
      · exact this.2.1 r' h.symm
      · exact b r' h
    · rw [d e]
      apply this.2.2
      rcases this.1 with h | ⟨h1, h2⟩ | ⟨h1, h2⟩
      · exact h
      all_goals
        exfalso
        have key : ∀ (ls : List Label) (s s' : Src), (s.loop = .returned ∨ s.loop = .panicked) → run s ls = some s' → (s'.loop = .returned ∨ s'.loop = .panicked) := by
          intro ls
          induction ls with
          | nil => intro s s' hl h; simp only [run, Option.some.injEq] at h; subst h; exact hl
          | cons l ls ih =>
            intro s s' hl h
            simp only [run, Option.bind_eq_some_iff] at h
            obtain ⟨s1, e1, e2⟩ := h
            refine ih s1 s' ?_ e2
            have t7 : s.tell.loop = s.loop := by unfold Src.tell; split <;> rfl
            unfold step at e1
            rcases hl with hl | hl <;> rw [hl] at e1 <;>
              cases l <;> simp only [reduceCtorEq, if_false, if_true] at e1 <;> (repeat' split at e1) <;>
              first
              | (simp at e1; done)
              | (simp only [Option.some.injEq] at e1; subst e1; simp_all)
        rcases key ls s1 s' (by simp [h2]) e2 with h | h <;> rw [e] at h <;> cases h

/-- C68. After an error answered with `FailConsumer` or `FatallyExit` the commit loop never commits again and handles no further error; after `FailConsumer` it can only
have returned, after `FatallyExit` only have panicked. -/
theorem C68_no_commit_after {r : ErrorResponse} (hr : r = .failConsumer ∨ r = .fatallyExit) {a b : List Label} {s : Src}
    (h : run Src.init (a ++ .err r :: b) = some s) :
    (∀ r', .err r' ∉ b) ∧ (s.loop = .failing r ∨ (r = .failConsumer ∧ s.loop = .returned) ∨ (r = .fatallyExit ∧ s.loop = .panicked)) := by
  rw [run_append'] at h
  obtain ⟨s1, h1, h2⟩ := Option.bind_eq_some_iff.mp h
  simp only [run, Option.bind_eq_some_iff] at h2
  obtain ⟨s2, e1, e2⟩ := h2
  have hl : Spec.after r s2.loop := by
    unfold step at e1
    simp only at e1
    have : r ≠ .continue := by rcases hr with rfl | rfl <;> simp
    (repeat' split at e1) <;> first | (simp at e1; done) | (simp only [Option.some.injEq] at e1; subst e1; simp_all [Spec.after])
  exact ⟨(after_run hr hl e2).2.1, (after_run hr hl e2).1⟩

/-- C68. If the handler only gives the three documented answers, then once everything that happens by itself has happened the commit loop has ended the way that was
asked for: by returning after `FailConsumer`, by the panic after `FatallyExit`. -/
theorem C68_loop_ends {r : ErrorResponse} (hr : r = .failConsumer ∨ r = .fatallyExit) {ls : List Label} {s : Src} (h : run Src.init ls = some s) (he : .err r ∈ ls)
    (ho : .err .other ∉ ls) (hq : Spec.Quiet s) : (r = .failConsumer ∧ s.loop = .returned) ∨ (r = .fatallyExit ∧ s.loop = .panicked) := by
  obtain ⟨a, b, rfl⟩ := List.append_of_mem he
  have h0 := h
  rw [run_append'] at h
  obtain ⟨s1, h1, h2⟩ := Option.bind_eq_some_iff.mp h
  simp only [run, Option.bind_eq_some_iff] at h2
  obtain ⟨s2, e1, e2⟩ := h2
  -- before the error nothing had gone wrong
  have hw : ∀ (a : List Label) (s s1 : Src), .err .other ∉ a → run s a = some s1 → s1.loop = .running → (s.watching = true ∧ s.loop = .running ∨
      (∃ r, s.loop = .failing r ∧ r ≠ .other ∧ r ≠ .continue) ∨ s.loop = .returned ∨ s.loop = .panicked) → s1.watching = true := by
    intro a
    induction a with
    | nil =>
      intro s s1 _ h hl hs
      simp only [run, Option.some.injEq] at h; subst h
      rw [hl] at hs; simpa using hs
    | cons l a ih =>
      intro s s1 ho h hl hs
      simp only [run, Option.bind_eq_some_iff] at h
      obtain ⟨s2, e1, e2⟩ := h
      refine ih s2 s1 (fun h => ho (List.mem_cons_of_mem _ h)) e2 hl ?_
      have hlo : l ≠ .err .other := fun e => ho (by rw [e]; exact List.mem_cons_self ..)
      have t7 : s.tell.loop = s.loop := by unfold Src.tell; split <;> rfl
      have t8 : s.tell.watching = s.watching := by unfold Src.tell; split <;> rfl
      unfold step at e1
      rcases hs with ⟨hs1, hs2⟩ | ⟨r', hs, hr1, hr2⟩ | hs | hs
      · rw [hs2] at e1
        cases l with
        | err r' =>
          have : r' ≠ .other := by rintro rfl; exact hlo rfl
          simp only [reduceCtorEq, if_false, if_true] at e1
          split at e1 <;> simp only [Option.some.injEq] at e1 <;> subst e1
          · exact .inl ⟨hs1, hs2⟩
          · exact .inr (.inl ⟨r', rfl, this, by assumption⟩)
        | _ =>
          simp only [reduceCtorEq, if_false, if_true] at e1 <;> (repeat' split at e1) <;>
          first
          | (simp at e1; done)
          | (simp only [Option.some.injEq] at e1; subst e1; simp_all; done)
      · rw [hs] at e1
        cases r' <;> simp only [ne_eq, not_true_eq_false] at hr1 hr2 <;> cases l <;> simp only [reduceCtorEq, if_false, if_true] at e1 <;> (repeat' split at e1) <;>
          first
          | (simp at e1; done)
          | (simp only [Option.some.injEq] at e1; subst e1; simp_all)
      · rw [hs] at e1
        cases l <;> simp only [reduceCtorEq, if_false, if_true] at e1 <;> (repeat' split at e1) <;>
          first
          | (simp at e1; done)
          | (simp only [Option.some.injEq] at e1; subst e1; simp_all)
      · rw [hs] at e1; simp at e1
  have hrun : s1.loop = .running ∧ s2.loop = .failing r ∧ s2.watching = s1.watching := by
    unfold step at e1
    simp only at e1
    have : r ≠ .continue := by rcases hr with rfl | rfl <;> simp
    (repeat' split at e1) <;> first | (simp at e1; done) | (simp only [Option.some.injEq] at e1; subst e1; simp_all)
  have hw1 : s1.watching = true := hw a _ _ (fun h => ho (List.mem_append_left _ h)) h1 hrun.1 (.inl ⟨rfl, rfl⟩)
  obtain ⟨c1, c2, c3⟩ := after_run hr (.inl hrun.2.1) e2
  rcases c1 with c1 | c1
  · exfalso
    have := hq .caught (by simp [Spec.Internal])
    simp [step, c1, c3 c1, hrun.2.2, hw1] at this
  · exact c1

/-- An error answered with `FailConsumer`: the source becomes unhealthy, stops and releases the waiter. -/
example : ∃ s, run Src.init [.wait, .err .continue, .err .failConsumer, .caught, .nowHalt, .nowClose, .nowTell, .wake] = some s ∧ s.loop = .returned ∧
    s.healthy = false ∧ s.halted = true ∧ s.released = 1 := ⟨_, rfl, rfl, rfl, rfl, rfl⟩

/-- The same run is quiet, and its error is answered as documented. -/
example : ∃ s, run Src.init [.wait, .err .continue, .err .failConsumer, .caught, .nowHalt, .nowClose, .nowTell, .wake] = some s ∧ Spec.Quiet s := by
  refine ⟨_, rfl, ?_⟩
  rintro l (rfl | rfl | rfl | rfl | rfl | rfl | rfl | rfl) <;> decide

/-- C64: nothing stops by itself. As long as nobody calls `Stop` or `StopNow` and no error closes the consumer, the run status is not halted, the client is open,
and nobody who waits for the end is released. -/
theorem C64_not_by_itself {ls : List Label} {s : Src} (h : run Src.init ls = some s) (hn : ¬ Spec.asked ls) :
    s.halted = false ∧ s.clientClosed = false ∧ s.token = false ∧ s.released = 0 := by
  have key : ∀ (ls : List Label) (s0 s : Src), (s0.halted = false ∧ s0.clientClosed = false ∧ s0.token = false ∧ s0.released = 0) ∧ s0.stopper = .off ∧
      s0.now0 = 0 ∧ s0.now1 = 0 ∧ s0.now2 = 0 → .stop ∉ ls ∧ .now ∉ ls ∧ .caught ∉ ls → run s0 ls = some s →
      s.halted = false ∧ s.clientClosed = false ∧ s.token = false ∧ s.released = 0 := by
    intro ls
    induction ls with
    | nil => intro s0 s I _ h; simp only [run, Option.some.injEq] at h; subst h; exact I.1
    | cons l ls ih =>
      intro s0 s I hl h
      simp only [run, Option.bind_eq_some_iff] at h
      obtain ⟨s1, e1, e2⟩ := h
      simp only [List.mem_cons, not_or] at hl
      refine ih s1 s ?_ ⟨hl.1.2, hl.2.1.2, hl.2.2.2⟩ e2
      obtain ⟨⟨i1, i2, i3, i4⟩, i5, i6, i7, i8⟩ := I
      unfold step at e1
      split at e1
      · simp at e1
      · cases l <;> simp only [i3, i5, i6, i7, i8] at e1 <;> (repeat' split at e1) <;>
          first
          | (simp at e1; done)
          | (simp only [Option.some.injEq] at e1; subst e1; simp_all)
          | simp_all
  refine key ls _ s ⟨⟨rfl, rfl, rfl, rfl⟩, rfl, rfl, rfl, rfl⟩ ?_ h
  simp only [Spec.asked, not_or] at hn
  exact hn

/-- An error that is ignored and somebody who waits: nobody asked, nothing stopped. -/
example : ∃ s, run Src.init [.wait, .err .continue, .wait] = some s ∧ ¬ Spec.asked [.wait, .err .continue, .wait] ∧ s.waiting = 2 ∧ s.halted = false :=
  ⟨_, rfl, by simp [Spec.asked], rfl, rfl⟩

/-- A handler may answer with a number that is none of the three constants. The loop then goes on after the first error; the second such error blocks it for ever,
so that nothing is committed any more, as `closeOnFail` receives only once (`streams/event_source.go:112`). -/
theorem C68_violated_other : ∃ ls s, run Src.init ls = some s ∧ s.loop = .failing .other ∧
    ∀ more s', run s more = some s' → s'.loop = .failing .other := by
  refine ⟨[.err .other, .caught, .err .other], _, rfl, rfl, ?_⟩
  have key : ∀ (more : List Label) (s s' : Src), s.loop = .failing .other → s.watching = false → run s more = some s' → s'.loop = .failing .other := by
    intro more
    induction more with
    | nil => intro s s' h1 _ h; simp only [run, Option.some.injEq] at h; subst h; exact h1
    | cons l more ih =>
      intro s s' h1 h2 h
      simp only [run, Option.bind_eq_some_iff] at h
      obtain ⟨s1, e1, e2⟩ := h
      have : s1.loop = .failing .other ∧ s1.watching = false := by
        unfold step at e1
        rw [h1] at e1
        obtain ⟨t1, t2, t3, t4, t5, t6⟩ := tell_same s
        have t7 : s.tell.loop = s.loop := by unfold Src.tell; split <;> rfl
        cases l <;> simp only [reduceCtorEq, if_false, h2] at e1 <;> (repeat' split at e1) <;>
          first
          | (simp at e1; done)
          | (simp only [Option.some.injEq] at e1; subst e1; simp_all)
      exact ih s1 s' this.1 this.2 e2
  exact fun more s' => key more _ s' rfl rfl

end Verif.Shutdown
