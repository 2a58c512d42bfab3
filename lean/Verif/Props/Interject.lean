import Verif.Interject.Progress
import Mathlib.Data.List.Nodup
/-
C69: interjections over all partitions.
-/
namespace Verif.Props.Interject
open Verif.Interject

/-- **C69, targets.** `InterjectAll` and `InterjectAllSync` set out to interject into exactly the partitions that have a worker at that moment, each once. -/
theorem C69_targets {s : St} (hr : Reach s) {i : Nat} {ps : List Nat} {a b : List Ev} (h : s.trace = a ++ Ev.found i ps :: b) :
    ps.Perm (owned a) ∧ ps.Nodup := by
  obtain ⟨h1, h2⟩ := found_owned hr i ps a b h
  exact ⟨h1, h1.nodup_iff.2 h2⟩

/-- **C69, once each.** When a call returns, its interjector has run in, or was refused by, each of the partitions that it set out for, exactly once, and in
no other; after that nothing is done for this call any more, and it does not return twice. -/
theorem C69_returned {s : St} (hr : Reach s) {i : Nat} {a b : List Ev} (h : s.trace = a ++ Ev.returned i :: b) :
    (∃ ps, targets i a = [ps] ∧ (outcomes i a).Perm ps) ∧ outcomes i b = [] ∧ targets i b = [] ∧ Ev.returned i ∉ b :=
  returned_all hr i a b h

/-- **C69, never twice.** At any time, whether or not the call returns, the interjector of a call has run or been refused at most once per partition, and only
in partitions that the call set out for. -/
theorem C69_at_most_once {s : St} (hr : Reach s) {i : Nat} {ps : List Nat} (h : targets i s.trace = [ps]) :
    (outcomes i s.trace).Nodup ∧ ∀ p ∈ outcomes i s.trace, p ∈ ps := by
  have T := tinv_reach hr
  have hn := T.found i ps (by rw [h]; simp)
  have hle : ∀ p, (outcomes i s.trace).count p ≤ ps.count p := by
    intro p
    have hst : ∃ c : Call, s.calls[i]? = some c ∧ c.pc ≠ .start := by
      cases hc : s.calls[i]? with
      | none =>
        rw [(T.fresh i (List.getElem?_eq_none_iff.1 hc)).1] at h; cases h
      | some c =>
        refine ⟨c, rfl, ?_⟩
        intro hs
        rw [(T.start i c hc hs).1] at h; cases h
    obtain ⟨c, hc, hs⟩ := hst
    have h1 := T.rest i c hc hs
    rw [h] at h1
    obtain rfl : ps = _ := by simpa using h1
    rw [T.out i p, List.count_append, List.count_eq_countP, List.countP_map, St.mine, List.countP_filter]
    refine Nat.le_trans ?_ (Nat.le_add_right _ _)
    apply List.countP_mono_left
    intro x _ hx
    simp only [decide_eq_true_eq] at hx
    simp [hx.1, hx.2.1]
  constructor
  · rw [List.nodup_iff_count_le_one]
    intro p
    exact Nat.le_trans (hle p) (List.nodup_iff_count_le_one.1 hn p)
  · intro p hp
    have := hle p
    have h2 := List.count_pos_iff.2 hp
    exact List.count_pos_iff.1 (by omega)

/-- **C69, one after the other.** `InterjectAllSync` goes through its partitions in one order, and hands its interjector to a worker only after the one
before it has run. -/
theorem C69_sequential {s : St} (hr : Reach s) {i : Nat} {pc : Pc} {ps : List Nat} (hc : s.calls[i]? = some ⟨true, pc⟩) (h : targets i s.trace = [ps]) :
    outcomes i s.trace <+: ps ∧ (sends i s.trace).length ≤ (runs i s.trace).length + 1 :=
  sync_order hr hc rfl h

/-- **C69, returns.** As long as no worker is revoked or stopped, all calls return: however the steps of the calls and of the workers are interleaved, there are
only boundedly many, and when none is left every call has returned. Missing: with revoked or stopped workers this is wrong, see the two theorems below. -/
theorem C69_returns_partial {s : St} (hr : Reach s) (hh : ∀ k ∈ s.wks, k.halted = false) :
    (∃ n, ∀ ls s', (∀ l ∈ ls, inner l = true) → run s ls = some s' → ls.length ≤ n) ∧
    (∀ ls s', (∀ l ∈ ls, inner l = true) → run s ls = some s' → (∀ l, inner l = true → step s' l = none) →
      ∀ i < s.calls.length, Ev.returned i ∈ s'.trace) ∧
    (∃ ls s', (∀ l ∈ ls, inner l = true) ∧ run s ls = some s' ∧ ∀ i < s.calls.length, Ev.returned i ∈ s'.trace) := by
  have second : ∀ ls s', (∀ l ∈ ls, inner l = true) → run s ls = some s' → (∀ l, inner l = true → step s' l = none) →
      ∀ i < s.calls.length, Ev.returned i ∈ s'.trace := by
    intro ls s' hls h hq i hi
    obtain ⟨h1, _, h3⟩ := calm_run hls hh h
    have hr' := reach_run hr h
    have hi' : i < s'.calls.length := by omega
    exact done_returned hr' i _ (List.getElem?_eq_getElem hi') (quiet_done hr' h1 hq i _ (List.getElem?_eq_getElem hi'))
  refine ⟨⟨s.weight, ?_⟩, second, ?_⟩
  · intro ls s' hls h
    have := (calm_run hls hh h).2.1
    omega
  · obtain ⟨ls, s', h1, h2, h3⟩ := exists_quiet s.weight s (Nat.le_refl _) hh
    exact ⟨ls, s', h1, h2, second ls s' h1 h2 h3⟩

/-- An interjection was dropped because its partition was revoked. -/
def orphaned : St :=
  { mux := none, map := [], wks := [⟨0, true, true, false, none, []⟩], calls := [⟨false, .next [] [0]⟩], tags := [⟨0, 0, .opened⟩], halted := false, lost := [0],
    trace := [.assigned 0, .found 0 [0], .sent 0 0, .revoked 0] }

/-- The second interjection after `StopNow`. -/
def stuck : St :=
  { mux := some 1, map := [(0, 0)], wks := [⟨0, true, true, true, some 0, []⟩], calls := [⟨false, .next [] [0]⟩, ⟨false, .sending 0 1 [] []⟩],
    tags := [⟨0, 0, .opened⟩, ⟨1, 0, .opened⟩], halted := true, lost := [], trace := [.assigned 0, .single 0 0, .sent 0 0, .single 1 0] }

theorem run_orphaned : run St.init [.assign 0, .ready 0, .call false, .snap 0 [0], .begin 0, .send 0, .revoke 0, .take 0] = some orphaned := by decide +kernel

theorem run_stuck : run St.init [.assign 0, .ready 0, .halt, .stop 0, .one 0, .begin 0, .send 0, .one 0, .begin 1] = some stuck := by decide +kernel

/-- **C69 is violated** by a revocation: a call whose interjector was in the channel of the worker when the partition was revoked never returns, whatever happens
later: `interject` has no way to close the channel of an interjection that was dropped. -/
theorem C69_violated_revoked : ∃ s, run St.init [.assign 0, .ready 0, .call false, .snap 0 [0], .begin 0, .send 0, .revoke 0, .take 0] = some s ∧
    targets 0 s.trace = [[0]] ∧ ∀ ls s', run s ls = some s' → Ev.returned 0 ∉ s'.trace := by
  refine ⟨orphaned, run_orphaned, rfl, ?_⟩
  intro ls s' h
  refine orphan_run (t := 0) (reach_run .init run_orphaned) ?_ h
  exact ⟨by decide, ⟨false, .next [] [0]⟩, rfl, by decide⟩

/-- **C69 is violated** by `StopNow`: when the event source is halted and the loop `pushRecords` has ended, the first `Interject` fills the channel and the second
one blocks while it holds `workerMux`, for ever: the poll loop never gets through `receive` again, no partition is assigned or revoked any more. So the revocation
that leaving the group brings with it, and with it `StopNow`, do not end. -/
theorem C69_violated_stopped : ∃ s, run St.init [.assign 0, .ready 0, .halt, .stop 0, .one 0, .begin 0, .send 0, .one 0, .begin 1] = some s ∧
    ∀ ls s', run s ls = some s' → s'.mux = some 1 ∧ Ev.returned 1 ∉ s'.trace ∧
      ∃ evs, s'.trace = s.trace ++ evs ∧ Ev.polled ∉ evs ∧ ∀ p, Ev.revoked p ∉ evs ∧ Ev.assigned p ∉ evs := by
  refine ⟨stuck, run_stuck, ?_⟩
  intro ls s' h
  have hr := reach_run .init run_stuck
  obtain ⟨⟨h1, ⟨sync, t, rest, its, h2⟩, h3⟩, evs, h4⟩ := stuck_run (i := 1) (w := 0) hr
    ⟨rfl, ⟨false, 1, [], [], rfl⟩, ⟨0, true, true, true, some 0, []⟩, rfl, rfl, by simp⟩ h
  refine ⟨h1, ?_, evs, h4⟩
  intro hret
  obtain ⟨c, g1, g2⟩ := (tinv_reach (reach_run hr h)).ret 1 hret
  rw [h2] at g1; cases g1; cases g2

/-! ### The hypotheses can be met -/

/-- Three partitions, one of them not ready and one revoked between the snapshot and its turn: `InterjectAll` and `InterjectAllSync` at the same time. -/
def busy : List Label :=
  [.assign 0, .assign 1, .assign 2, .ready 0, .ready 2, .call false, .call true, .snap 0 [1, 0, 2], .snap 1 [2, 1, 0],
   .begin 0, .begin 0, .send 0, .revoke 2, .begin 0, .begin 1, .fin 0, .recv 1, .begin 1, .recv 1, .begin 1, .recv 0, .take 0, .send 1, .run 0, .recv 0, .recv 0,
   .fin 0, .take 0, .run 0, .recv 1, .fin 1]

example : (run St.init busy).map (·.trace) = some
    [.assigned 0, .assigned 1, .assigned 2, .found 0 [1, 0, 2], .found 1 [2, 1, 0], .refused 0 1, .sent 0 0, .revoked 2, .refused 0 2, .refused 1 2, .refused 1 1,
     .sent 1 0, .ran 0 0, .returned 0, .ran 1 0, .returned 1] := by decide +kernel

/-- `C69_returned` and `C69_targets` for that run. -/
example : ∃ s, Reach s ∧ s.trace = [.assigned 0, .assigned 1, .assigned 2] ++ Ev.found 0 [1, 0, 2] :: s.trace.drop 4 ∧
    s.trace = s.trace.take 13 ++ Ev.returned 0 :: [.ran 1 0, .returned 1] ∧ outcomes 0 (s.trace.take 13) = [1, 2, 0] := by
  obtain ⟨s, hs⟩ : ∃ s, run St.init busy = some s := Option.isSome_iff_exists.1 (by decide +kernel)
  have ht : s.trace = [.assigned 0, .assigned 1, .assigned 2, .found 0 [1, 0, 2], .found 1 [2, 1, 0], .refused 0 1, .sent 0 0, .revoked 2, .refused 0 2,
      .refused 1 2, .refused 1 1, .sent 1 0, .ran 0 0, .returned 0, .ran 1 0, .returned 1] := by
    have : (run St.init busy).map (·.trace) = some s.trace := by rw [hs]; rfl
    exact Option.some.inj (this.symm.trans (by decide +kernel))
  exact ⟨s, reach_run .init hs, by rw [ht]; decide, by rw [ht]; decide, by rw [ht]; decide⟩

/-- `C69_sequential` and `C69_at_most_once` in the middle of that run. -/
example : ∃ s, run St.init (busy.take 18) = some s ∧ (∃ pc, s.calls[1]? = some ⟨true, pc⟩) ∧ targets 1 s.trace = [[2, 1, 0]] ∧ outcomes 1 s.trace = [2, 1] :=
  ⟨_, rfl, ⟨_, rfl⟩, rfl, rfl⟩

/-- `C69_returns_partial`: two calls under way, none of the workers halted. -/
example : ∃ s, run St.init [.assign 0, .assign 1, .ready 0, .call false, .call true, .snap 0 [1, 0], .begin 0, .begin 0, .send 0] = some s ∧
    (∀ k ∈ s.wks, k.halted = false) ∧ s.calls.length = 2 ∧ Ev.returned 0 ∉ s.trace :=
  ⟨_, rfl, by decide, rfl, by decide⟩

end Verif.Props.Interject
