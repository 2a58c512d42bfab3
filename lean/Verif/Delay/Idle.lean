import Verif.Delay.Clock
/-
The timer never panics, an idle pool is left alone, the clock adds nothing and takes nothing away, and what it is for
the queue to be full.
-/
namespace Verif.Delay
open Verif.Eos (upd upd_same upd_ne)

theorem reset_ok {s : S} {d : Nat} (h : 0 < d) : s.reset d = { s with due := s.now + d, period := d } := by
  unfold S.reset; rw [if_neg (by omega)]

theorem timer_ok {c : Cfg} (hd : 0 < c.delay) {s t : S} {l : Eos.Label} (h : timer c s l = some t) : t.crashed = s.crashed := by
  have hm : 0 < minute := by decide
  cases l <;> simp only [timer, reset_ok hd, reset_ok hm] at h <;> (repeat' split at h) <;>
    first
    | (cases h; done)
    | (simp only [Option.some.injEq] at h; subst h; rfl)

theorem step_ok {c : Cfg} (hd : 0 < c.delay) {s s' : S} {l : Label} (h : step c s l = some s') : s'.crashed = s.crashed := by
  cases l with
  | pool l =>
    obtain ⟨_, p, t, _, h2, rfl⟩ := pool_step h
    have := timer_ok hd h2
    exact this
  | pass d => simp only [step, Option.some.injEq] at h; subst h; rfl
  | fire =>
    simp only [step] at h
    split at h
    · simp only [Option.some.injEq] at h; subst h; rfl
    · cases h

theorem no_crash {c : Cfg} (hd : 0 < c.delay) {s : S} (h : Reach c s) : s.crashed = false := by
  induction h with
  | init => rfl
  | step l _ hs ih => rw [step_ok hd hs, ih]

/-! ### An idle pool -/

/-- Nothing is on deck, and the timer is set to a minute; `f` ticks were sent since time `t0`. -/
structure Calm (t0 f : Nat) (s : S) : Prop where
  empty : s.deck.cnt = 0 ∨ s.pool.fwd = .swap ∨ s.pool.fwd = .force
  loop : s.pool.fwd = .idle ∨ s.pool.fwd = .trying ∨ s.pool.fwd = .swap ∨ s.pool.fwd = .force
  period : s.period = minute
  sent : t0 + f * minute ≤ s.now
  next : t0 + (f + 1) * minute ≤ s.due

/-- Ticks that the loop took and that are there, against those that were sent. -/
def b2n (b : Bool) : Nat := if b then 1 else 0

theorem calm_step {c : Cfg} {t0 f : Nat} {s s' : S} {l : Label} (F : Fresh s.pool) (hl : ∀ e, l ≠ .pool (.add e))
    (I : Calm t0 f s) (h : step c s l = some s') :
    ∃ f', Calm t0 f' s' ∧ wakes [l] + b2n s'.chan + f ≤ b2n s.chan + f' := by
  cases l with
  | pass d =>
    simp only [step, Option.some.injEq] at h; subst h
    exact ⟨f, ⟨I.empty, I.loop, I.period, Nat.le_trans I.sent (Nat.le_add_right _ _), I.next⟩, by simp [wakes]⟩
  | fire =>
    simp only [step] at h
    split at h
    · rename_i hd
      simp only [Option.some.injEq] at h; subst h
      have h1 := I.next
      have h2 := I.period
      refine ⟨f + 1, ⟨I.empty, I.loop, I.period, by simp only; omega, ?_⟩, ?_⟩
      · simp only [h2]
        have : minute ≤ minute * (1 + (s.now - s.due) / minute) := Nat.le_mul_of_pos_right _ (Nat.lt_of_lt_of_le Nat.zero_lt_one (Nat.le_add_right _ _))
        have e1 : (f + 1 + 1) * minute = (f + 1) * minute + minute := Nat.succ_mul _ _
        omega
      · simp only [wakes, b2n]; split <;> simp <;> omega
    · cases h
  | pool l =>
    obtain ⟨h0, p, t, h1, h2, rfl⟩ := pool_step h
    have hm := moves F h1
    have hs := I.sent
    have hn := I.next
    have e1 : (f + 1) * minute = f * minute + minute := Nat.succ_mul _ _
    have other : ∀ (l : Eos.Label), l ≠ .tick → wakes [.pool l] = 0 := by
      intro l hl; cases l <;> first | rfl | exact absurd rfl hl
    cases hm with
    | add e => exact absurd rfl (hl e)
    | give e f1 => rcases I.loop with h | h | h | h <;> simp [f1] at h
    | check1 f1 => rcases I.loop with h | h | h | h <;> simp [f1] at h
    | check2 f1 => rcases I.loop with h | h | h | h <;> simp [f1] at h
    | tick f1 f2 f3 =>
      simp only [timer] at h2
      split at h2
      · rename_i hch
        simp only [Option.some.injEq] at h2; subst h2
        have he : s.deck.cnt = 0 := by rcases I.empty with h | h | h <;> [exact h; simp [f1] at h; simp [f1] at h]
        exact ⟨f, ⟨.inl (by simpa [S.deck, f3] using he), .inr (.inl f2), I.period, I.sent, I.next⟩, by simp [wakes, b2n, hch]⟩
      · cases h2
    | try1 f1 f2 f3 =>
      simp only [timer] at h2
      rw [if_pos (show ({ s with base := s.now, tried := true } : S).deck.load = c.eos.max from f2)] at h2
      simp only [Option.some.injEq] at h2; subst h2
      exact ⟨f, ⟨.inr (.inr f3), .inr (.inr (.inr f3)), I.period, I.sent, I.next⟩, by simp [wakes]⟩
    | try2 f1 f2 f3 =>
      rcases I.empty with h | h | h
      · exact absurd h (Nat.pos_iff_ne_zero.1 f3)
      · simp [f1] at h
      · simp [f1] at h
    | try3 f1 f2 f3 =>
      rcases I.empty with h | h | h
      · exact absurd h (Nat.pos_iff_ne_zero.1 f3)
      · simp [f1] at h
      · simp [f1] at h
    | try4 f1 f2 f3 f4 f5 =>
      simp only [timer] at h2
      rw [if_neg (show ¬ ({ s with base := s.now, tried := true } : S).deck.load = c.eos.max from f2),
        if_neg (show ¬ 0 < ({ s with base := s.now, tried := true } : S).deck.cnt from f3), reset_ok (by decide)] at h2
      simp only [Option.some.injEq] at h2; subst h2
      refine ⟨f, ⟨.inl ?_, .inl f4, rfl, I.sent, by simp only; omega⟩, by simp [wakes]⟩
      simp only [S.deck, f5]; omega
    | forced f1 f2 =>
      simp only [timer, Option.some.injEq] at h2; subst h2
      exact ⟨f, ⟨.inr (.inl f2), .inr (.inr (.inl f2)), I.period, I.sent, I.next⟩, by simp [wakes]⟩
    | swapIn f1 f2 f3 =>
      simp only [timer, Option.some.injEq] at h2; subst h2
      exact ⟨f, ⟨.inl f3, .inl f2, I.period, I.sent, I.next⟩, by simp [wakes]⟩
    | other _ g0 _ g2 _ f2 f3 =>
      rw [g0] at h2
      simp only [Option.some.injEq] at h2; subst h2
      refine ⟨f, ⟨?_, by simpa only [f2] using I.loop, I.period, I.sent, I.next⟩, by simp [other _ g2]⟩
      rcases I.empty with h | h | h
      · left
        simp only [S.deck] at h ⊢
        rcases f3 with f3 | f3 <;> rw [f3]
        exact h
      · exact .inr (.inl (by rw [f2]; exact h))
      · exact .inr (.inr (by rw [f2]; exact h))

theorem fresh_one {c : Cfg} {s s' : S} {l : Label} (F : Fresh s.pool) (h : step c s l = some s') : Fresh s'.pool := by
  cases l with
  | pool l => obtain ⟨_, p, t, h1, _, rfl⟩ := pool_step h; exact fresh_step F h1
  | pass d => simp only [step, Option.some.injEq] at h; subst h; exact F
  | fire =>
    simp only [step] at h
    split at h
    · simp only [Option.some.injEq] at h; subst h; exact F
    · cases h

theorem wakes_cons (l : Label) (ls : List Label) : wakes (l :: ls) = wakes [l] + wakes ls := by
  cases l with
  | pool l => cases l <;> simp [wakes, Nat.add_comm]
  | pass d => simp [wakes]
  | fire => simp [wakes]

theorem calm_run {c : Cfg} {t0 : Nat} : ∀ {ls : List Label} {f : Nat} {s s' : S}, Fresh s.pool → Calm t0 f s →
    (∀ e, .pool (.add e) ∉ ls) → run c s ls = some s' →
    ∃ f', Calm t0 f' s' ∧ wakes ls + b2n s'.chan + f ≤ b2n s.chan + f'
  | [], f, s, s', _, I, _, h => by
    simp only [run, Option.some.injEq] at h; subst h
    exact ⟨f, I, by simp [wakes]⟩
  | l :: ls, f, s, s', F, I, hl, h => by
    obtain ⟨t, h1, h2⟩ := run_cons h
    obtain ⟨f1, I1, e1⟩ := calm_step F (fun e he => hl e (by rw [← he]; exact List.mem_cons_self)) I h1
    obtain ⟨f2, I2, e2⟩ := calm_run (fresh_one F h1) I1 (fun e he => hl e (List.mem_cons_of_mem _ he)) h2
    exact ⟨f2, I2, by rw [wakes_cons]; omega⟩

/-! ### The same pool -/

theorem run_pool {c : Cfg} : ∀ {ls : List Label} {s s' : S}, run c s ls = some s' →
    Eos.run c.eos s.pool (poolSteps ls) = some s'.pool
  | [], s, s', h => by simp only [run, Option.some.injEq] at h; subst h; rfl
  | l :: ls, s, s', h => by
    obtain ⟨t, h1, h2⟩ := run_cons h
    have ih := run_pool h2
    cases l with
    | pool l =>
      obtain ⟨_, p, t', g1, _, rfl⟩ := pool_step h1
      simp only [poolSteps, List.filterMap_cons, Eos.run, g1, Option.bind_some]
      exact ih
    | pass d => simp only [step, Option.some.injEq] at h1; subst h1; exact ih
    | fire =>
      simp only [step] at h1
      split at h1
      · simp only [Option.some.injEq] at h1; subst h1; exact ih
      · cases h1

theorem run_append {c : Cfg} : ∀ {as bs : List Label} {s t u : S}, run c s as = some t → run c t bs = some u →
    run c s (as ++ bs) = some u
  | [], bs, s, t, u, h1, h2 => by simp only [run, Option.some.injEq] at h1; subst h1; exact h2
  | a :: as, bs, s, t, u, h1, h2 => by
    obtain ⟨v, g1, g2⟩ := run_cons h1
    simp only [List.cons_append, run, g1, Option.bind_some]
    exact run_append g2 h2

theorem timed_step {c : Cfg} {s : S} (hc : s.crashed = false) {l : Eos.Label} {p : Eos.Pool}
    (h : Eos.step c.eos s.pool l = some p) :
    ∃ ls s', run c s ls = some s' ∧ s'.pool = p ∧ poolSteps ls = [l] := by
  by_cases hl : l = .tick
  · subst hl
    let s1 : S := { s with now := s.now + (s.due - s.now) }
    have hdue : s1.due ≤ s1.now := by simp only [s1]; omega
    let s2 : S := { s1 with due := s1.due + s1.period * (1 + (s1.now - s1.due) / s1.period), chan := true,
                            ready := if s1.chan then s1.ready else s1.now }
    have h1 : step c s (.pass (s.due - s.now)) = some s1 := rfl
    have h2 : step c s1 .fire = some s2 := by simp only [step, if_pos hdue, s2]
    have h3 : step c s2 (.pool .tick) = some { s2 with chan := false, since := s2.now, pool := p } := by
      have hp : Eos.step c.eos s2.pool .tick = some p := h
      have h4 : s2.crashed = false := hc
      simp only [step, hp, timer, h4, Bool.false_eq_true, if_false]
      simp [s2]
    exact ⟨[.pass (s.due - s.now), .fire, .pool .tick], { s2 with chan := false, since := s2.now, pool := p },
      by simp only [run, h1, h2, h3, Option.bind_some], rfl, rfl⟩
  · have : ∃ t, timer c s l = some t := by
      cases l <;> simp only [timer] <;> (repeat' split) <;> first | exact ⟨_, rfl⟩ | exact absurd rfl hl
    obtain ⟨t, ht⟩ := this
    exact ⟨[.pool l], { t with pool := p }, by simp [run, step, hc, h, ht], rfl, rfl⟩

theorem timed_run {c : Cfg} (hd : 0 < c.delay) : ∀ {ls : List Eos.Label} {s : S} {p : Eos.Pool}, s.crashed = false →
    Eos.run c.eos s.pool ls = some p → ∃ ks s', run c s ks = some s' ∧ s'.pool = p ∧ poolSteps ks = ls
  | [], s, p, _, h => by
    simp only [Eos.run, Option.some.injEq] at h
    exact ⟨[], s, rfl, h, rfl⟩
  | l :: ls, s, p, hc, h => by
    simp only [Eos.run] at h
    cases h1 : Eos.step c.eos s.pool l with
    | none => rw [h1] at h; cases h
    | some q =>
      rw [h1, Option.bind_some] at h
      obtain ⟨as, t, g1, g2, g3⟩ := timed_step hc h1
      have ht : t.crashed = false := by
        clear h1 g2 g3 h
        induction as generalizing s with
        | nil => simp only [run, Option.some.injEq] at g1; subst g1; exact hc
        | cons a as ih =>
          obtain ⟨v, v1, v2⟩ := run_cons g1
          exact ih v ((step_ok hd v1).trans hc) v2
      subst g2
      obtain ⟨bs, u, k1, k2, k3⟩ := timed_run hd ht h
      exact ⟨as ++ bs, u, run_append g1 k1, k2, by
        simp only [poolSteps, List.filterMap_append] at g3 k3 ⊢; rw [g3, k3]; rfl⟩

/-! ### A full queue -/

/-- Something is on deck, the queue is full, and the timer has just been set. -/
structure Full (c : Cfg) (s : S) : Prop where
  loop : s.pool.fwd = .idle
  deck : 0 < s.deck.cnt
  load : s.deck.load ≠ c.eos.max
  queue : ¬ s.pool.cq.length < c.eos.pending
  due : s.due = s.now + c.delay
  chan : s.chan = false
  alive : s.crashed = false

end Verif.Delay
