import Verif.Whole.Settle
/-
Property C98: a consumer that is left alone comes to rest, with everything done. For every number of consumers and of transactional producers, all
capacities, every interleaving and every application that completes its events; without interjections (C65 shows what these can do).
-/
namespace Verif.Whole
open Verif.Eos (Ev Pool)
open Verif.Effects (Inc)
open Verif.Worker (PW It)

variable {c : Eos.Cfg} {ecap : Nat} {src : Nat → List Nat} {w w' : Group} {k : Nat}

/-- **C98** (it ends). From every state there is a bound on the number of steps that consumer `k` makes by itself, whatever the other consumers do,
however many records handlers produce and whatever is revoked meanwhile. -/
theorem C98_ends (hn : 0 < c.poolSize) (h : Reach c ecap src w) (k : Nat) : ∃ N, ∀ n w', Calm c ecap src k w n w' → n ≤ N :=
  calm_bounded hn h k

/-- **C98** (nothing is left). If nothing can happen by itself in a living consumer whose commits did not fail and that had no interjections, everything is
done. -/
theorem C98_rest (hn : 0 < c.poolSize) (hp : 0 < c.pending) (hm : 0 < c.max) (he : 0 < ecap) (hsrc : ∀ tp, (src tp).Pairwise (· < ·))
    (h : Reach c ecap src w) (hk : w.alive k = true) (ok : (w.inst k).pool.com ≠ .stopped) (hij : ∀ j, (w.wks k j).nextTag = 0)
    (hq : ∀ a, internal c w k a = true → step c ecap src w a = none) : Settled c w k :=
  quiet_settled hn hp hm he hsrc h ⟨hk, ok, hij⟩ hq

/-- **C98**. Every schedule that goes on as long as something can happen in consumer `k` reaches a state in which everything is done. -/
theorem C98_completes (hn : 0 < c.poolSize) (hp : 0 < c.pending) (hm : 0 < c.max) (he : 0 < ecap) (hsrc : ∀ tp, (src tp).Pairwise (· < ·))
    (h : Reach c ecap src w) (hk : w.alive k = true) (ok : (w.inst k).pool.com ≠ .stopped) (hij : ∀ j, (w.wks k j).nextTag = 0) :
    ∃ N, ∀ n w', Calm c ecap src k w n w' →
      n ≤ N ∧ ((∃ a w'', internal c w' k a = true ∧ step c ecap src w' a = some w'') ∨ Settled c w' k) := by
  obtain ⟨N, hN⟩ := calm_bounded hn h k
  refine ⟨N, fun n w' hc => ⟨hN n w' hc, ?_⟩⟩
  by_cases hq : Quiet c ecap src w' k
  · exact .inr (quiet_settled hn hp hm he hsrc (calm_reach h hc) (fine_calm ⟨hk, ok, hij⟩ hc) hq)
  · left
    unfold Quiet at hq
    push Not at hq
    obtain ⟨a, h1, h2⟩ := hq
    obtain ⟨w2, hs⟩ := Option.ne_none_iff_exists'.1 h2
    exact ⟨a, w2, h1, hs⟩

/-- **C98** (it can). From every such state the consumer can come to rest by its own steps alone; then no step of its own is possible any more. -/
theorem C98_reaches (hn : 0 < c.poolSize) (hp : 0 < c.pending) (hm : 0 < c.max) (he : 0 < ecap) (hsrc : ∀ tp, (src tp).Pairwise (· < ·))
    (h : Reach c ecap src w) (hk : w.alive k = true) (ok : (w.inst k).pool.com ≠ .stopped) (hij : ∀ j, (w.wks k j).nextTag = 0) :
    ∃ n w', Calm c ecap src k w n w' ∧ (∀ a, internal c w' k a = true → step c ecap src w' a = none) ∧ Settled c w' k := by
  obtain ⟨N, hN⟩ := C98_completes hn hp hm he hsrc h hk ok hij
  have key : ∀ d n w', Calm c ecap src k w n w' → n + d = N + 1 →
      ∃ n w', Calm c ecap src k w n w' ∧ Quiet c ecap src w' k := by
    intro d
    induction d with
    | zero => intro n w' hc hd; have := (hN n w' hc).1; omega
    | succ d ih =>
      intro n w' hc hd
      by_cases hq : Quiet c ecap src w' k
      · exact ⟨n, w', hc, hq⟩
      · unfold Quiet at hq
        push Not at hq
        obtain ⟨a, h1, h2⟩ := hq
        obtain ⟨w2, hs⟩ := Option.ne_none_iff_exists'.1 h2
        exact ih (n + 1) w2 (.next a hc h1 hs) (by omega)
  obtain ⟨n, w', hc, hq⟩ := key (N + 1) 0 w .start (by omega)
  exact ⟨n, w', hc, hq, quiet_settled hn hp hm he hsrc (calm_reach h hc) (fine_calm ⟨hk, ok, hij⟩ hc) hq⟩

/-! ### A run -/

/-- Runs acts that `Calm` allows and counts those of consumer `k`. -/
def calmRun (c : Eos.Cfg) (ecap : Nat) (src : Nat → List Nat) (k : Nat) : Nat → Group → List Act → Option (Nat × Group)
  | n, w, [] => some (n, w)
  | n, w, a :: as =>
    if internal c w k a then (step c ecap src w a).bind fun w' => calmRun c ecap src k (n + 1) w' as
    else if aside k a then (step c ecap src w a).bind fun w' => calmRun c ecap src k n w' as
    else none

theorem calmRun_calm {w0 : Group} {as : List Act} {n m : Nat} {w w' : Group} (hc : Calm c ecap src k w0 n w)
    (h : calmRun c ecap src k n w as = some (m, w')) : Calm c ecap src k w0 m w' := by
  induction as generalizing n w with
  | nil => cases h; exact hc
  | cons a as ih =>
    simp only [calmRun] at h
    split at h
    · rename_i ha
      obtain ⟨w1, h1, h2⟩ := Option.bind_eq_some_iff.1 h
      exact ih (.next a hc ha h1) h2
    · split at h
      · rename_i ha
        obtain ⟨w1, h1, h2⟩ := Option.bind_eq_some_iff.1 h
        exact ih (.aside a hc ha h1) h2
      · cases h

/-- Consumer 0 has got a record. -/
def before : List Act := [.start, .assign 0 5 0, .ready 0 0 (-1), .fetch 0 0 [some 10], .own 0 0 .send]

/-- What it does then. Meanwhile another consumer starts, the handler produces, and the partition is revoked. -/
def after : List Act :=
  [.own 0 0 .take, .own 0 0 .record, .own 0 0 .acquire, .own 0 0 .poolAdd, .start, .forward 0 0, .pool 0 .give, .pool 0 .check, .own 0 0 .put,
   .own 0 0 .inter, .own 0 0 .record, .own 0 0 .handle, .own 0 0 .got, .emit 0 0 ⟨0, some 10, 0⟩ 100, .revoke 0 5, .own 0 0 (.ret true)] ++
   flush 0 ++ [.wait 0] ++ endIt 0 ++ leave 0 0

/-- The hypotheses of C98: a consumer with work to do, and a schedule after which it is done. -/
example : ∃ w, Reach demoCfg 2 demoSrc w ∧ w.alive 0 = true ∧ (w.inst 0).pool.com ≠ .stopped ∧ (∀ j, (w.wks 0 j).nextTag = 0) ∧
    (w.wks 0 0).input = [[some 10]] ∧ ∃ w', Calm demoCfg 2 demoSrc 0 w 28 w' ∧ (w'.wks 0 0).wk = .stopped ∧ w'.log 5 = [11] ∧
      (w'.wks 0 0).offered = [10] := by
  have hd : ∃ w, run demoCfg 2 demoSrc (Group.init demoCfg) before = some w ∧ w.alive 0 = true ∧ (w.inst 0).pool.com = .idle ∧
      w.nw 0 = 1 ∧ (w.wks 0 0).nextTag = 0 ∧ (w.wks 0 0).input = [[some 10]] ∧
      ∃ p, calmRun demoCfg 2 demoSrc 0 0 w after = some p ∧ p.1 = 28 ∧ (p.2.wks 0 0).wk = .stopped ∧ p.2.log 5 = [11] ∧
        (p.2.wks 0 0).offered = [10] :=
    ⟨_, rfl, by decide +kernel, by decide +kernel, by decide +kernel, by decide +kernel, by decide +kernel,
      _, rfl, by decide +kernel, by decide +kernel, by decide +kernel, by decide +kernel⟩
  obtain ⟨w, h1, h2, h3, h4, h5, h6, ⟨n, w'⟩, h7, h8, h9, h10, h11⟩ := hd
  have hr := run_reach .init h1
  cases h8
  refine ⟨w, hr, h2, by rw [h3]; simp, fun j => ?_, h6, w', calmRun_calm .start h7, h9, h10, h11⟩
  cases j with
  | zero => exact h5
  | succ j => rw [(base_reach hr).un 0 (j + 1) (by omega)]; rfl

end Verif.Whole
