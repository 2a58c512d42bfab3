import Verif.Deadline.Queue
import Verif.Props.Delay
/-
C103. A closed transaction is committed in bounded time.
-/
namespace Verif.Props.Queue
open Verif.Delay Verif.Props.Delay
open Verif.Deadline (From takes)

/-- A transaction at place `i` of the commit queue is taken within `i + 1` times 29 seconds (and the delays of the loop itself), whatever the
application does, unless the commit loop has given up. For any execution in which the loops are late by at most `L`. -/
theorem C103_taken {c : Cfg} {L : Nat} {s u : Deadline.S} {ls : List Label} (h0 : Deadline.Prompt c L s) {i : Nat}
    (hi : i < s.d.pool.cq.length) (h : From c L s ls u) (hk : takes ls ≤ i) (hs : u.d.pool.com ≠ .stopped) :
    u.d.now ≤ s.d.now + (i + 1) * (29000000000 + 4 * L) :=
  Nat.le_trans (Deadline.taken_bound h0 hi h hk hs) (Nat.add_le_add_left (Nat.mul_le_mul_right _ (by omega)) _)

/-- Transactions are taken in the order of the queue, and what was at place `i` is over, committed or failed, within `i + 2` times 29 seconds. -/
theorem C103_over {c : Cfg} {L : Nat} {s t u v : Deadline.S} {ls ms : List Label} (h0 : Deadline.Prompt c L s) {i : Nat}
    (hi : i < s.d.pool.cq.length) (h : From c L s ls t) (hk : takes ls = i) (hu : Deadline.step c t (.pool .take) = some u)
    (hv : From c L u ms v) (h1 : .pool .giveBack ∉ ms) (h2 : ∀ b, .pool (.commitFail b) ∉ ms) :
    Deadline.busyWith v.d.pool.com = some (s.d.pool.cq[i]) ∧ v.d.now ≤ s.d.now + (i + 2) * (29000000000 + 4 * L) :=
  Deadline.over_bound h0 hi h hk hu hv h1 h2

theorem from_front {c : Cfg} {L : Nat} {s t u : Deadline.S} {l : Label} {ls : List Label} (h1 : ∀ d, l = .pass d → Deadline.InTime L s d)
    (h2 : Deadline.step c s l = some t) (h : From c L t ls u) : From c L s (l :: ls) u := by
  induction h with
  | here => exact From.here.next l h1 h2
  | next l' _ g1 g2 ih => exact ih.next l' g1 g2

theorem promptC_from {c : Cfg} {L : Nat} : ∀ {ls : List Label} {s s' : Deadline.S},
    promptC c L s ls = some s' → From c L s ls s'
  | [], s, s', hr => by simp only [promptC, Option.some.injEq] at hr; subst hr; exact .here
  | l :: ls, s, s', hr => by
    simp only [promptC] at hr
    split at hr
    · rename_i hok
      split at hr
      · rename_i t h1
        exact from_front (inTimeC_sound hok) h1 (promptC_from hr)
      · exact absurd hr (by simp)
    · exact absurd hr (by simp)

/-- A second in nanoseconds. -/
def sec : Nat := 1000000000

/-- With a batch delay of five seconds. -/
def slowCfg : Cfg := { eos := { poolSize := 3, pending := 1, target := 2, max := 10 }, delay := 5000000000 }

/-- Three transactions, one after another: the first has an event that takes 28 seconds, the second, of the same partition, has produced nothing, the
third, of another partition, has produced a record at once and is complete at once. -/
def lateStart : List Label :=
  [.pool (.add ⟨1, 0, some 1⟩), .pool .give, .pool .check, .pass (5 * sec), .fire, .pool .tick, .pool .tryFlush, .pool .swapIn,
   .pool .take, .pool (.beginCommit [0]), .pool .wait,
   .pool (.add ⟨2, 0, some 2⟩), .pool .give, .pool .check, .pass (5 * sec), .fire, .pool .tick, .pool .tryFlush, .pool .swapIn,
   .pool (.add ⟨3, 1, some 3⟩), .pool .give, .pool .check, .pool (.produce ⟨3, 1, some 3⟩ 7), .pool (.complete ⟨3, 1, some 3⟩)]

/-- The second transaction is committed at 40 seconds, then the third one is taken. -/
def lateRest : List Label :=
  [.pass (5 * sec), .fire, .pool .tick, .pool .tryFlush,
   .pass (5 * sec), .fire, .pool .tick, .pool .tryFlush,
   .pass (5 * sec), .fire, .pool .tick, .pool .tryFlush,
   .pass (5 * sec), .fire, .pool .tick, .pool .tryFlush,
   .pass (3 * sec),
   .pool (.complete ⟨1, 0, some 1⟩), .pool .wait, .pool (.endTxn [0]), .pool .release, .pool .release, .pool .giveBack,
   .pool .take, .pool (.beginCommit [0]), .pool .wait,
   .pass (2 * sec), .fire, .pool .tick, .pool .tryFlush, .pool .swapIn,
   .pass (5 * sec),
   .pool (.complete ⟨2, 0, some 2⟩), .pool .wait, .pool (.endTxn [0]), .pool .release, .pool .release, .pool .giveBack,
   .pool .take]

/-- The limit of 29 seconds runs from the first record of a transaction, also while the transaction waits for others. A transaction whose only
event was produced and completed at once can be taken by the commit loop after its limit, although nobody in the pool was late, the two
transactions before it were committed within their own limits, and every event was completed within 33 seconds: that a transaction is
finished in time does not depend on its own events only. `finalizeEventContexts`, `Flush` and `EndTransaction` then work with a context that
has ended. -/
theorem C103_violated_limit : ∃ s s', Deadline.Prompt slowCfg 0 s ∧ From slowCfg 0 s lateRest s' ∧ s.d.now = 10 * sec ∧ 3 ∈ s.d.pool.done ∧
    s'.d.pool.com = .begun 2 ∧ (s'.d.pool.nodes 2).evs.map Eos.Ev.id = [3] ∧ s'.d.pool.ended = [(0, true), (1, true)] ∧
    (s'.d.pool.nodes 2).opened = true ∧ s'.dead 2 < s'.d.now := by
  have h : ((promptC slowCfg 0 (Deadline.S.init slowCfg) lateStart).any fun s => decide (s.d.now = 10 * sec ∧ 3 ∈ s.d.pool.done) &&
      ((promptC slowCfg 0 s lateRest).any fun s' => decide (s'.d.pool.com = .begun 2 ∧ (s'.d.pool.nodes 2).evs.map Eos.Ev.id = [3] ∧
        s'.d.pool.ended = [(0, true), (1, true)] ∧ (s'.d.pool.nodes 2).opened = true ∧ s'.dead 2 < s'.d.now))) = true := by decide +kernel
  obtain ⟨h1, h2⟩ := (Option.any_eq_true_iff_get _ _).1 h
  rw [Bool.and_eq_true] at h2
  obtain ⟨h3, h4⟩ := (Option.any_eq_true_iff_get _ _).1 h2.2
  have a := of_decide_eq_true h2.1
  have b := of_decide_eq_true h4
  exact ⟨_, _, promptC_sound .init (Option.some_get h1).symm, promptC_from (Option.some_get h3).symm, a.1, a.2, b⟩

/-- A transaction that is at the first place of the queue and still there: the one of `Props.Delay.fullRun`. -/
example : ∃ s u, Deadline.Prompt exCfg 0 s ∧ 0 < s.d.pool.cq.length ∧ From exCfg 0 s [.pass 5000000] u ∧ takes [.pass 5000000] ≤ 0 ∧
    u.d.pool.com ≠ .stopped := by
  have h : ((promptC exCfg 0 (Deadline.S.init exCfg) fullRun).any fun s => decide (0 < s.d.pool.cq.length) &&
      ((promptC exCfg 0 s [.pass 5000000]).any fun u => decide (u.d.pool.com ≠ .stopped))) = true := by decide +kernel
  obtain ⟨h1, h2⟩ := (Option.any_eq_true_iff_get _ _).1 h
  rw [Bool.and_eq_true] at h2
  obtain ⟨h3, h4⟩ := (Option.any_eq_true_iff_get _ _).1 h2.2
  exact ⟨_, _, promptC_sound .init (Option.some_get h1).symm, of_decide_eq_true h2.1, promptC_from (Option.some_get h3).symm, by decide,
    of_decide_eq_true h4⟩

/-- It is taken when the one before it is over, and waits for its event. -/
example : ∃ s t u v, Deadline.Prompt exCfg 0 s ∧ 0 < s.d.pool.cq.length ∧
    From exCfg 0 s [.pool (.complete (ev 1)), .pool .wait, .pool (.endTxn [0]), .pool .release, .pool .release, .pool .giveBack] t ∧
    Deadline.step exCfg t (.pool .take) = some u ∧ From exCfg 0 u [.pool (.beginCommit [0]), .pass 5000000] v := by
  have h : ((promptC exCfg 0 (Deadline.S.init exCfg) fullRun).any fun s => decide (0 < s.d.pool.cq.length) &&
      ((promptC exCfg 0 s [.pool (.complete (ev 1)), .pool .wait, .pool (.endTxn [0]), .pool .release, .pool .release, .pool .giveBack]).any
        fun t => (Deadline.step exCfg t (.pool .take)).any fun u =>
          (promptC exCfg 0 u [.pool (.beginCommit [0]), .pass 5000000]).isSome)) = true := by decide +kernel
  obtain ⟨h1, h2⟩ := (Option.any_eq_true_iff_get _ _).1 h
  rw [Bool.and_eq_true] at h2
  obtain ⟨h3, h4⟩ := (Option.any_eq_true_iff_get _ _).1 h2.2
  obtain ⟨h5, h6⟩ := (Option.any_eq_true_iff_get _ _).1 h4
  exact ⟨_, _, _, _, promptC_sound .init (Option.some_get h1).symm, of_decide_eq_true h2.1, promptC_from (Option.some_get h3).symm,
    (Option.some_get h5).symm, promptC_from (Option.some_get h6).symm⟩

end Verif.Props.Queue
