import Verif.Deadline.Full
/-
C99: how long a transaction waits on deck.
-/
namespace Verif.Props.Delay
open Verif.Delay

/-- Nobody is late, as a check that can be computed. -/
def inTime (L : Nat) (s : S) : Label → Bool
  | .pass d => decide (s.now + d ≤ s.due + L) &&
      (decide (s.pool.fwd = .idle ∨ s.pool.fwd = .force ∨ s.pool.fwd = .swap) || decide (s.now + d ≤ s.since + L)) &&
      (!s.chan || decide (s.pool.fwd = .force ∨ s.pool.fwd = .swap) || decide (s.now + d ≤ s.ready + L))
  | _ => true

theorem inTime_sound {L : Nat} {s : S} {l : Label} (h : inTime L s l = true) (d : Nat) (hd : l = .pass d) : InTime L s d := by
  subst hd
  simp only [inTime, Bool.and_eq_true, Bool.or_eq_true, decide_eq_true_eq, Bool.not_eq_true'] at h
  obtain ⟨⟨g1, g2⟩, g3⟩ := h
  refine ⟨g1, ?_, ?_⟩
  · rintro ⟨b1, b2, b3⟩
    rcases g2 with (g | g | g) | g
    · exact absurd g b1
    · exact absurd g b2
    · exact absurd g b3
    · exact g
  · intro hc hb
    rcases g3 with (g | g) | g
    · rw [hc] at g; cases g
    · exact absurd g hb
    · exact g

/-- The executions in which nobody is late, computed. -/
def prompt (c : Cfg) (L : Nat) (s : S) : List Label → Option S
  | [] => some s
  | l :: ls => if inTime L s l then (match step c s l with | some s' => prompt c L s' ls | none => none) else none

theorem prompt_sound {c : Cfg} {L : Nat} : ∀ {ls : List Label} {s s' : S}, Prompt c L s → prompt c L s ls = some s' → Prompt c L s'
  | [], s, s', h, hr => by simp only [prompt, Option.some.injEq] at hr; subst hr; exact h
  | l :: ls, s, s', h, hr => by
    simp only [prompt] at hr
    split at hr
    · rename_i hok
      split at hr
      · rename_i t h1
        exact prompt_sound (h.step l (inTime_sound hok) h1) hr
      · exact absurd hr (by simp)
    · exact absurd hr (by simp)

/-- A pool of three nodes, one transaction waiting, batches of two or more, ten milliseconds. -/
def exCfg : Cfg := { eos := { poolSize := 3, pending := 1, target := 2, max := 10 }, delay := 10000000 }

/-- The events of the examples. -/
def ev (i : Nat) : Eos.Ev := ⟨i, 0, some i⟩

/-- What an accepted configuration has. -/
theorem accepted {given used : Config.EosConfig} (h : Config.effectiveEosConfig given = some used) :
    0 < (Cfg.of used).delay ∧ 0 < (Cfg.of used).eos.pending := by
  have hv : used.validate = true := by
    unfold Config.effectiveEosConfig at h
    generalize (if given.isZero then Config.defaultEosConfig else given) = e at h
    simp only at h
    by_cases hv : e.validate = true
    · rw [if_pos hv, Option.some.injEq] at h; rw [← h]; exact hv
    · rw [if_neg hv] at h; exact absurd h (by simp)
  simp only [Config.EosConfig.validate] at hv
  repeat' split at hv
  all_goals first | (cases hv; done) | skip
  simp only [Cfg.of]
  omega

/-- With a configuration that is accepted, the flush timer is never set to a time that makes it panic. -/
theorem C99_no_panic {given used : Config.EosConfig} (h : Config.effectiveEosConfig given = some used) {s : S}
    (hr : Reach (Cfg.of used) s) : s.crashed = false := no_crash (accepted h).1 hr

example : ∃ s, Reach (Cfg.of Config.defaultEosConfig) s ∧ s.deck.cnt = 1 ∧ s.crashed = false :=
  have h : ((prompt (Cfg.of Config.defaultEosConfig) 0 (S.init _) [.pool (.add (ev 1)), .pool .give, .pool .check]).any
      fun s => decide (s.deck.cnt = 1 ∧ s.crashed = false)) = true := by decide +kernel
  have ⟨h1, h2⟩ := (Option.any_eq_true_iff_get _ _).1 h
  ⟨_, (prompt_sound .init (Option.some_get h1).symm).reach, by simpa using h2⟩

/-- Without that check it would: the reset to nothing ends the program. -/
example : ∃ s, Reach { exCfg with delay := 0 } s ∧ s.crashed = true :=
  have h : ((prompt { exCfg with delay := 0 } 0 (S.init _) [.pool (.add (ev 1)), .pool .give, .pool .check]).any
      fun s => decide (s.crashed = true)) = true := by decide +kernel
  have ⟨h1, h2⟩ := (Option.any_eq_true_iff_get _ _).1 h
  ⟨_, (prompt_sound .init (Option.some_get h1).symm).reach, by simpa using h2⟩

/-- Whenever the loop waits with something on deck, a tick is there for it or will come at most `BatchDelay` after the loop
last looked. In all executions, however late anybody is. -/
theorem C99_timer_set {c : Cfg} (hd : 0 < c.delay) {s : S} (hr : Reach c s) (hi : s.pool.fwd = .idle) (hn : 0 < s.deck.cnt) :
    s.base ≤ s.now ∧ (s.chan = true ∨ s.due ≤ s.base + c.delay) :=
  have J := set_reach hr (no_crash hd hr)
  ⟨J.past, J.wake ⟨hn, .inl hi⟩⟩

/-- If nobody is late by more than `L`, the first attempt to commit a transaction comes at most `BatchDelay` after its first
event (and three delays), and the following ones at most `BatchDelay` after the one before (and two delays). -/
theorem C99_attempts {c : Cfg} (hd : 0 < c.delay) {L : Nat} {s : S} (hr : Prompt c L s) (hi : s.pool.fwd = .idle)
    (hn : 0 < s.deck.cnt) :
    (s.tried = false → s.now ≤ s.first + c.delay + 3 * L) ∧ (s.tried = true → s.now ≤ s.base + c.delay + 2 * L) := by
  have hc := no_crash hd hr.reach
  have h1 := wait_bound hr hc ⟨hn, .inl hi⟩
  refine ⟨fun ht => ?_, fun _ => h1⟩
  have h2 := (clock_prompt hr hc).fresh ⟨hn, .inl hi⟩ ht
  omega

/-- An event after a millisecond, ten more until the timer fires; the attempt succeeds. -/
def attempt : List Label :=
  [.pass 1000000, .pool (.add (ev 1)), .pool .give, .pool .check, .pass 10000000, .fire, .pool .tick, .pool .tryFlush]

example : ∃ s, Prompt exCfg 0 s ∧ s.pool.fwd = .idle ∧ 0 < s.deck.cnt ∧ s.tried = false ∧ s.now = s.first + exCfg.delay :=
  have h : ((prompt exCfg 0 (S.init exCfg) (attempt.take 6)).any fun s =>
      decide (s.pool.fwd = .idle ∧ 0 < s.deck.cnt ∧ s.tried = false ∧ s.now = s.first + exCfg.delay)) = true := by decide +kernel
  have ⟨h1, h2⟩ := (Option.any_eq_true_iff_get _ _).1 h
  ⟨_, prompt_sound .init (Option.some_get h1).symm, by simpa using h2⟩

example : ∃ s, Prompt exCfg 0 s ∧ s.pool.cq = [0] ∧ s.now = s.first + exCfg.delay :=
  have h : ((prompt exCfg 0 (S.init exCfg) attempt).any fun s =>
      decide (s.pool.cq = [0] ∧ s.now = s.first + exCfg.delay)) = true := by decide +kernel
  have ⟨h1, h2⟩ := (Option.any_eq_true_iff_get _ _).1 h
  ⟨_, prompt_sound .init (Option.some_get h1).symm, by simpa using h2⟩

/-- If moreover the commit queue has room whenever the loop tries, no transaction is on deck for longer than `BatchDelay` (and
three delays). What is missing to the claim: `Roomy`, see `C99_violated_full_queue`. -/
theorem C99_age_partial {c : Cfg} (hd : 0 < c.delay) {L : Nat} {s : S} (hr : Roomy c L s) (hi : s.pool.fwd = .idle)
    (hn : 0 < s.deck.cnt) : s.now ≤ s.first + c.delay + 3 * L :=
  (C99_attempts hd hr.prompt hi hn).1 (roomy_fresh hr (no_crash hd hr.prompt.reach) ⟨hn, .inl hi⟩)

example : ∃ s, Roomy exCfg 0 s ∧ s.pool.fwd = .idle ∧ 0 < s.deck.cnt := by
  have h1 : Roomy exCfg 0 _ := Roomy.init.step (.pool (.add (ev 1))) (fun d h => by cases h) (fun h => by cases h) rfl
  have h2 := h1.step (.pool .give) (fun d h => by cases h) (fun h => by cases h) rfl
  have h3 := h2.step (.pool .check) (fun d h => by cases h) (fun h => by cases h) rfl
  exact ⟨_, h3, by decide +kernel, by decide +kernel⟩

/-- An attempt that finds a place in the queue takes the transaction off the deck: it is the next to be committed after those
that wait already. -/
theorem C99_attempt_succeeds {c : Cfg} {s s' : S} (hn : 0 < s.deck.cnt)
    (hq : s.pool.cq.length < c.eos.pending) (h : step c s (.pool .tryFlush) = some s') :
    (s'.pool.fwd = .swap ∧ s'.pool.cq = s.pool.cq ++ [s.pool.onDeck]) ∨
    (s'.pool.fwd = .force ∧ ∃ s'', step c s' (.pool .forced) = some s'' ∧ s''.pool.fwd = .swap ∧
      s''.pool.cq = s.pool.cq ++ [s.pool.onDeck]) := by
  obtain ⟨hc, p, t, h1, h2, rfl⟩ := pool_step h
  simp only [Eos.step] at h1
  split at h1
  · split at h1
    · rename_i hl
      simp only [Option.some.injEq] at h1; subst h1
      refine .inr ⟨rfl, ?_⟩
      simp only [timer] at h2
      rw [if_pos (show ({ s with base := s.now, tried := true } : S).deck.load = c.eos.max from hl)] at h2
      simp only [Option.some.injEq] at h2; subst h2
      simp only [step, hc, Bool.false_eq_true, if_false, Eos.step, hq, if_true, timer]
      exact ⟨_, rfl, rfl, rfl⟩
    · split at h1
      · simp only [Option.some.injEq] at h1; subst h1
        exact .inl ⟨rfl, rfl⟩
      · rename_i h3; exact absurd hn h3
  · cases h1

example : ∃ s, Prompt exCfg 0 s ∧ 0 < s.deck.cnt ∧ s.pool.cq.length < exCfg.eos.pending ∧ s.pool.fwd = .trying :=
  have h : ((prompt exCfg 0 (S.init exCfg) (attempt.take 7)).any fun s =>
      decide (0 < s.deck.cnt ∧ s.pool.cq.length < exCfg.eos.pending ∧ s.pool.fwd = .trying)) = true := by decide +kernel
  have ⟨h1, h2⟩ := (Option.any_eq_true_iff_get _ _).1 h
  ⟨_, prompt_sound .init (Option.some_get h1).symm, by simpa using h2⟩

/-- A pool with nothing to do is left alone: after the timer found nothing on deck, it wakes the loop at most once more, and then
once a minute, as long as no event comes. -/
theorem C99_idle {c : Cfg} {s s' s'' : S} {ls : List Label} (hr : Reach c s) (hz : s.deck.cnt = 0)
    (h : step c s (.pool .tryFlush) = some s') (hi : s'.pool.fwd = .idle) (hl : ∀ e, .pool (.add e) ∉ ls)
    (h2 : run c s' ls = some s'') : (wakes ls - 1) * minute ≤ s''.now - s'.now := by
  have hr' := hr.step _ h
  obtain ⟨_, p, t, h1, g2, rfl⟩ := pool_step h
  have hm := moves (fresh_reach hr) h1
  have I : Calm s.now 0 { t with pool := p } ∧ t.now = s.now := by
    cases hm with
    | try1 f1 f2 f3 => simp [f3] at hi
    | try2 f1 f2 f3 f4 f5 => simp [f5] at hi
    | try3 f1 f2 f3 => exact absurd hz (Nat.pos_iff_ne_zero.1 f3)
    | try4 f1 f2 f3 f4 f5 =>
      simp only [timer] at g2
      rw [if_neg (show ¬ ({ s with base := s.now, tried := true } : S).deck.load = c.eos.max from f2),
        if_neg (show ¬ 0 < ({ s with base := s.now, tried := true } : S).deck.cnt from f3), reset_ok (by decide)] at g2
      simp only [Option.some.injEq] at g2; subst g2
      refine ⟨⟨.inl ?_, .inl f4, rfl, by simp, by simp⟩, rfl⟩
      simp only [S.deck, f5]; exact hz
    | other _ g0 g1 => exact absurd rfl g1
  obtain ⟨f', J, e⟩ := calm_run (fresh_reach hr') I.1 hl h2
  have h5 := J.sent
  have h6 : wakes ls ≤ 1 + f' := by
    have : b2n ({ t with pool := p } : S).chan ≤ 1 := by unfold b2n; split <;> simp
    omega
  have h7 : (wakes ls - 1) * minute ≤ f' * minute := Nat.mul_le_mul_right _ (by omega)
  have h8 := I.2
  simp only at *
  omega

example : ∃ s s' s'', Reach exCfg s ∧ s.deck.cnt = 0 ∧ step exCfg s (.pool .tryFlush) = some s' ∧ s'.pool.fwd = .idle ∧
    run exCfg s' [.pass minute, .fire, .pool .tick, .pool .tryFlush] = some s'' ∧ s''.pool.fwd = .idle := by
  have h1 : Reach exCfg _ := Reach.init.step (.pass minute) rfl
  have h2 := h1.step .fire rfl
  have h3 := h2.step (.pool .tick) rfl
  exact ⟨_, _, _, h3, by decide +kernel, rfl, by decide +kernel, rfl, by decide +kernel⟩

/-- The clock neither adds nor forbids anything: what the pool does with its clock is what the pool of `Verif.Eos` does, and everything
that one does can happen with the clock. -/
theorem C99_same_pool {c : Cfg} (hd : 0 < c.delay) :
    (∀ ls s', run c (S.init c) ls = some s' → Eos.run c.eos (Eos.Pool.init c.eos) (poolSteps ls) = some s'.pool) ∧
    (∀ ls p, Eos.run c.eos (Eos.Pool.init c.eos) ls = some p →
      ∃ ks s', run c (S.init c) ks = some s' ∧ s'.pool = p ∧ poolSteps ks = ls) :=
  ⟨fun _ _ h => run_pool h, fun _ _ h => timed_run hd rfl h⟩

example : ((run exCfg (S.init exCfg) attempt).any fun s => decide (s.pool.cq = [0])) = true ∧
    poolSteps attempt = [.add (ev 1), .give, .check, .tick, .tryFlush] := ⟨by decide +kernel, rfl⟩

/-- The first transaction is being committed and waits for its event, the second one is in the queue, the third one is on deck. -/
def fullRun : List Label :=
  [.pool (.add (ev 1)), .pool .give, .pool .check, .pass 10000000, .fire, .pool .tick, .pool .tryFlush, .pool .swapIn,
   .pool .take, .pool (.beginCommit [0]), .pool .wait,
   .pool (.add (ev 2)), .pool .give, .pool .check, .pass 10000000, .fire, .pool .tick, .pool .tryFlush, .pool .swapIn,
   .pool (.add (ev 3)), .pool .give, .pool .check, .pass 10000000, .fire, .pool .tick, .pool .tryFlush]

/-- Nobody is late, the commit loop included, as a check that can be computed. -/
def inTimeC (L : Nat) (s : Deadline.S) (l : Label) : Bool :=
  inTime L s.d l &&
  match l with
  | .pass d => match s.d.pool.com with
    | .idle => decide (s.d.pool.cq = []) || decide (s.d.now + d ≤ s.stage + L)
    | .fin p _ _ _ => decide (s.d.now + d ≤ max (s.dead p) s.stage + L)
    | .stopped => true
    | _ => decide (s.d.now + d ≤ s.stage + L)
  | _ => true

theorem inTimeC_sound {L : Nat} {s : Deadline.S} {l : Label} (h : inTimeC L s l = true) (d : Nat) (hd : l = .pass d) :
    Deadline.InTime L s d := by
  subst hd
  simp only [inTimeC, Bool.and_eq_true] at h
  refine ⟨inTime_sound h.1 d rfl, ?_, ?_⟩
  · have h2 := h.2
    rintro (⟨p, hc⟩ | ⟨p, r, hc⟩ | ⟨p, hc⟩ | ⟨hc, hq⟩) <;> rw [hc] at h2 <;> simp only at h2
    · simpa using h2
    · simpa using h2
    · simpa using h2
    · simpa [hq] using h2
  · intro p a f x hc
    have h2 := h.2
    rw [hc] at h2
    simpa using h2

/-- The executions in which nobody is late, the commit loop included, computed. -/
def promptC (c : Cfg) (L : Nat) (s : Deadline.S) : List Label → Option Deadline.S
  | [] => some s
  | l :: ls => if inTimeC L s l then (match Deadline.step c s l with | some s' => promptC c L s' ls | none => none) else none

theorem promptC_sound {c : Cfg} {L : Nat} : ∀ {ls : List Label} {s s' : Deadline.S}, Deadline.Prompt c L s →
    promptC c L s ls = some s' → Deadline.Prompt c L s'
  | [], s, s', h, hr => by simp only [promptC, Option.some.injEq] at hr; subst hr; exact h
  | l :: ls, s, s', h, hr => by
    simp only [promptC] at hr
    split at hr
    · rename_i hok
      split at hr
      · rename_i t h1
        exact promptC_sound (h.step l (inTimeC_sound hok) h1) hr
      · exact absurd hr (by simp)
    · exact absurd hr (by simp)

/-- Whatever the application does, as long as the commit loop has not given up: a transaction is on deck for at most twice `BatchDelay` and
the 29 seconds after which a commit fails. For an accepted configuration. -/
theorem C99_age_full_queue {given used : Config.EosConfig} (h : Config.effectiveEosConfig given = some used) {L : Nat} {s : Deadline.S}
    (hr : Deadline.Prompt (Cfg.of used) L s) (hs : s.d.pool.com ≠ .stopped) (hi : s.d.pool.fwd = .idle) (hn : 0 < s.d.deck.cnt) :
    s.d.now ≤ s.d.first + 2 * (Cfg.of used).delay + 29000000000 + 10 * L := by
  have hv := accepted h
  exact Deadline.deck_bound hv.1 hv.2 hr hs hi hn

/-- The commit loop takes the next transaction at most 29 seconds (and four delays) after it took the one before, or after there was
something to take again, unless it has given up. -/
theorem C99_commit_loop {c : Cfg} {L : Nat} {s : Deadline.S} (hr : Deadline.Prompt c L s) (hs : s.d.pool.com ≠ .stopped)
    (hq : s.d.pool.com ≠ .idle ∨ s.d.pool.cq ≠ []) : s.d.now ≤ s.work + 29000000000 + 4 * L :=
  Deadline.work_bound (Deadline.com_prompt hr) hs hq

example : ∃ s, Deadline.Prompt exCfg 0 s ∧ s.d.pool.com ≠ .stopped ∧ s.d.pool.cq ≠ [] ∧ s.d.pool.fwd = .idle ∧ 0 < s.d.deck.cnt :=
  have h : ((promptC exCfg 0 (Deadline.S.init exCfg) fullRun).any fun s =>
      decide (s.d.pool.com ≠ .stopped ∧ s.d.pool.cq ≠ [] ∧ s.d.pool.fwd = .idle ∧ 0 < s.d.deck.cnt)) = true := by decide +kernel
  have ⟨h1, h2⟩ := (Option.any_eq_true_iff_get _ _).1 h
  ⟨_, promptC_sound .init (Option.some_get h1).symm, by simpa using h2⟩

/-- `BatchDelay` is documented as "the maximum amount of time to wait before committing a transaction". It is not: while the commit
loop waits for an event that is not completed, with the queue full, a transaction can stay on deck for 28 seconds with a `BatchDelay`
of ten milliseconds, although nobody in the pool is late. -/
theorem C99_violated_full_queue : ∃ s, Deadline.Prompt exCfg 0 s ∧ s.d.pool.com ≠ .stopped ∧ s.d.pool.fwd = .idle ∧
    0 < s.d.deck.cnt ∧ exCfg.delay = 10000000 ∧ s.d.first + 28000000000 ≤ s.d.now := by
  have h : ((promptC exCfg 0 (Deadline.S.init exCfg) fullRun).any fun s => decide (s.d.pool.fwd = .idle ∧ 0 < s.d.deck.cnt ∧
      s.d.deck.load ≠ exCfg.eos.max ∧ (¬ s.d.pool.cq.length < exCfg.eos.pending) ∧ s.d.due = s.d.now + exCfg.delay ∧
      s.d.chan = false ∧ s.d.crashed = false) && decide (s.d.pool.com = .fin 0 [ev 1] false [] ∧ (s.d.pool.nodes 0).opened = true ∧
      s.d.now + 2800 * exCfg.delay ≤ s.dead 0 ∧ s.d.first ≤ s.d.now)) = true := by decide +kernel
  obtain ⟨h1, h2⟩ := (Option.any_eq_true_iff_get _ _).1 h
  have h3 := promptC_sound .init (Option.some_get h1).symm
  simp only [Bool.and_eq_true, decide_eq_true_eq] at h2
  obtain ⟨⟨a1, a2, a3, a4, a5, a6, a7⟩, b1, b2, b3, b4⟩ := h2
  obtain ⟨t, t1, t2, t3, t4, t5⟩ := Deadline.stuck_long (by decide) h3 ⟨⟨a1, a2, a3, a4, a5, a6, a7⟩, ⟨_, _, _, b1⟩, b2⟩ 2800 b3
  obtain ⟨x, y, z, hc⟩ := t2.com
  refine ⟨t, t1, by rw [hc]; simp, t2.full.loop, t2.full.deck, rfl, ?_⟩
  rw [t3, t5]
  simp only [exCfg] at *
  omega

end Verif.Props.Delay
