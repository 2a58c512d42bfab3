import Verif.Latency.Proofs
import Verif.Props.Delay
/-
C104. Every event is committed in bounded time, or its transaction fails.
-/
namespace Verif.Props.Latency
open Verif.Delay (Cfg Label minute)
open Verif.Props.Delay (accepted exCfg ev fullRun inTimeC inTimeC_sound)
open Verif.Latency (Prompt InTime S)

/-- What an accepted configuration has, besides `Props.Delay.accepted`. -/
theorem accepted_pool {given used : Config.EosConfig} (h : Config.effectiveEosConfig given = some used) : 0 < (Cfg.of used).eos.poolSize := by
  have hv : used.validate = true := by
    unfold Config.effectiveEosConfig at h
    generalize (if given.isZero then Config.defaultEosConfig else given) = e at h
    simp only at h
    by_cases hv : e.validate = true
    · rw [if_pos hv, Option.some.injEq] at h; rw [← h]; exact hv
    · rw [if_neg hv] at h; exact absurd h (by simp)
  simp only [Config.EosConfig.validate] at hv
  repeat' split at hv
  all_goals first | (cases hv; done) | skip
  simp only [Cfg.of]
  omega

/-- With a configuration that is accepted, and whatever the application does: an event that was put in a transaction is in a transaction that has ended with
success, or the commit loop has given up (and the consumer fails), at the latest two times `BatchDelay` and as many transaction timeouts as there can be
transactions in the queue, and three, after it came. For any execution in which the goroutines of the pool are late by at most `L`. -/
theorem C104_decided {given used : Config.EosConfig} (h : Config.effectiveEosConfig given = some used) {L : Nat} {s : S}
    (hr : Prompt (Cfg.of used) L s) {e : Eos.Ev} {g : Nat} (he : (e, g) ∈ s.pool.added)
    (ht : s.came e.id + 2 * (Cfg.of used).delay + ((Cfg.of used).eos.pending + 3) * 29000000000 + (4 * (Cfg.of used).eos.pending + 20) * L < s.now) :
    g ∈ s.pool.ended.map Prod.fst ∨ s.pool.com = .stopped := by
  by_contra hc
  rw [not_or] at hc
  have hv := accepted h
  have := Verif.Latency.decided hv.1 hv.2 (accepted_pool h) hr hc.2 he hc.1
  simp only [Verif.Latency.frontAge, Verif.Latency.deckAge, Verif.Latency.turn, Deadline.txnTimeout] at this
  simp only [Nat.mul_add, Nat.add_mul] at this ht
  have h1 : (Cfg.of used).eos.pending * (4 * L) = 4 * (Cfg.of used).eos.pending * L := by rw [← Nat.mul_assoc, Nat.mul_comm _ 4]
  rw [h1] at this
  omega

/-- The default configuration: within 116.02 seconds if nobody in the pool is late. -/
theorem C104_default {s : S} (hr : Prompt (Cfg.of Config.defaultEosConfig) 0 s) {e : Eos.Ev} {g : Nat} (he : (e, g) ∈ s.pool.added)
    (ht : s.came e.id + 116020000000 < s.now) : g ∈ s.pool.ended.map Prod.fst ∨ s.pool.com = .stopped :=
  have h0 : Config.effectiveEosConfig Config.defaultEosConfig = some Config.defaultEosConfig := by decide
  have h1 : (Cfg.of Config.defaultEosConfig).delay = 10000000 := by decide +kernel
  have h2 : (Cfg.of Config.defaultEosConfig).eos.pending = 1 := by decide +kernel
  have h3 : ∀ a n x y z : Nat, x + y = z → a + z < n → a + x + y + (4 * 1 + 20) * 0 < n := by intro a n x y z h1 h2; omega
  C104_decided h0 hr he (by rw [h1, h2]; exact h3 _ _ (2 * 10000000) ((1 + 3) * 29000000000) _ (by decide +kernel) ht)

/-- The observer does not disturb: what it sees are the executions of the pool with its clock, all of them. -/
theorem C104_same {c : Cfg} :
    (∀ ls s', Verif.Latency.run c (S.init c) ls = some s' → Deadline.run c (Deadline.S.init c) ls = some s'.d) ∧
    (∀ ls d, Deadline.run c (Deadline.S.init c) ls = some d → ∃ s', Verif.Latency.run c (S.init c) ls = some s' ∧ s'.d = d) := by
  constructor
  · have : ∀ ls (s s' : S), Verif.Latency.run c s ls = some s' → Deadline.run c s.d ls = some s'.d := by
      intro ls
      induction ls with
      | nil => intro s s' h; simp only [Verif.Latency.run, Option.some.injEq] at h; subst h; rfl
      | cons l ls ih =>
        intro s s' h
        simp only [Verif.Latency.run, Option.bind_eq_some_iff] at h
        obtain ⟨t, h1, h2⟩ := h
        simp only [Deadline.run, (Verif.Latency.step_eq h1).1, Option.bind_some]
        exact ih t s' h2
    exact fun ls s' h => this ls _ s' h
  · have : ∀ ls (s : S) d, Deadline.run c s.d ls = some d → ∃ s', Verif.Latency.run c s ls = some s' ∧ s'.d = d := by
      intro ls
      induction ls with
      | nil => intro s d h; simp only [Deadline.run, Option.some.injEq] at h; subst h; exact ⟨s, rfl, rfl⟩
      | cons l ls ih =>
        intro s d h
        simp only [Deadline.run, Option.bind_eq_some_iff] at h
        obtain ⟨t, h1, h2⟩ := h
        simp only [Verif.Latency.run, Verif.Latency.step, h1, Option.map_some, Option.bind_some]
        exact ih _ d h2
    exact fun ls d h => this ls _ d h

/-- Nobody is late, as a check that can be computed. -/
def inTimeL (c : Cfg) (L : Nat) (s : S) (l : Label) : Bool :=
  inTimeC L s.d l &&
  match l with
  | .pass d => if s.pool.fwd = .force ∧ s.pool.cq.length < c.eos.pending then decide (s.now + d ≤ s.room + L) else true
  | _ => true

/-- The executions in which nobody is late, computed. -/
def promptL (c : Cfg) (L : Nat) (s : S) : List Label → Option S
  | [] => some s
  | l :: ls => if inTimeL c L s l && decide (l ≠ .pool (.commitFail true)) then
      (match Verif.Latency.step c s l with | some s' => promptL c L s' ls | none => none) else none

theorem promptL_sound {c : Cfg} {L : Nat} : ∀ {ls : List Label} {s s' : S}, Prompt c L s → promptL c L s ls = some s' → Prompt c L s'
  | [], s, s', h, hr => by simp only [promptL, Option.some.injEq] at hr; subst hr; exact h
  | l :: ls, s, s', h, hr => by
    simp only [promptL] at hr
    split at hr
    · rename_i hok
      rw [Bool.and_eq_true, decide_eq_true_eq] at hok
      split at hr
      · rename_i t h1
        refine promptL_sound (h.step l hok.2 ?_ h1) hr
        intro d hd
        have h2 := hok.1
        simp only [inTimeL, Bool.and_eq_true] at h2
        refine ⟨inTimeC_sound h2.1 d hd, ?_⟩
        subst hd
        intro a b
        have := h2.2
        simp only at this
        rw [if_pos ⟨a, b⟩] at this
        simpa using this
      · exact absurd hr (by simp)
    · exact absurd hr (by simp)

/-- The events of three transactions (see `Props.Delay.fullRun`), none of them ended after 30 milliseconds, the first after 29 seconds and more. -/
example : ∃ s, Prompt exCfg 0 s ∧ s.pool.added = [(ev 1, 0), (ev 2, 1), (ev 3, 2)] ∧ s.came 1 = 0 ∧ s.came 2 = 10000000 ∧ s.came 3 = 20000000 ∧
    s.pool.ended = [] ∧ s.pool.com ≠ .stopped ∧ s.now = 30000000 :=
  have h : ((promptL exCfg 0 (S.init exCfg) fullRun).any fun s => decide (s.pool.added = [(ev 1, 0), (ev 2, 1), (ev 3, 2)] ∧
      s.came 1 = 0 ∧ s.came 2 = 10000000 ∧ s.came 3 = 20000000 ∧ s.pool.ended = [] ∧ s.pool.com ≠ .stopped ∧ s.now = 30000000)) = true := by decide +kernel
  have ⟨h1, h2⟩ := (Option.any_eq_true_iff_get _ _).1 h
  ⟨_, promptL_sound .init (Option.some_get h1).symm, by simpa using h2⟩

/-- An event, its commit, and two minutes in which nothing happens but the ticks of the timer. -/
def longRun : List Label :=
  [.pool (.add (ev 1)), .pool .give, .pool .check, .pool (.complete (ev 1)), .pass 10000000, .fire, .pool .tick, .pool .tryFlush, .pool .swapIn,
   .pool .take, .pool (.beginCommit [0]), .pool .wait, .pool .wait, .pool (.endTxn [0]), .pool .release, .pool .release, .pool .giveBack,
   .pass 10000000, .fire, .pool .tick, .pool .tryFlush, .pass minute, .fire, .pool .tick, .pool .tryFlush, .pass minute]

/-- The hypotheses of `C104_default` are met by the default configuration. -/
example : ∃ s, Prompt (Cfg.of Config.defaultEosConfig) 0 s ∧ (ev 1, 0) ∈ s.pool.added ∧ s.came (ev 1).id + 116020000000 < s.now ∧
    s.pool.ended = [(0, true)] :=
  have h : ((promptL (Cfg.of Config.defaultEosConfig) 0 (S.init _) longRun).any fun s => decide ((ev 1, 0) ∈ s.pool.added ∧
      s.came (ev 1).id + 116020000000 < s.now ∧ s.pool.ended = [(0, true)])) = true := by decide +kernel
  have ⟨h1, h2⟩ := (Option.any_eq_true_iff_get _ _).1 h
  ⟨_, promptL_sound .init (Option.some_get h1).symm, by simpa using h2⟩

end Verif.Props.Latency
