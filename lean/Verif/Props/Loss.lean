import Verif.Loss.Proofs
/-
Property C84: a transaction is committed only with all its records (`streams/eos_producer.go:207-240`, `359-392`, `514-535`).
-/
set_option linter.unusedSimpArgs false
namespace Verif.Loss
open Verif.Eos

/-- **C84** (all or nothing, without failures). If no record of a committed transaction failed, readers see of each partition exactly the records
that were produced in the transaction, in the order of the calls. (Missing: committed transactions with failed records, see
`C84_violated_committed`.) -/
theorem C84_complete_partial {c : Cfg} (hn : 0 < c.poolSize) {s : St} (h : Reach c s) {g : Nat} (hg : (g, true) ∈ s.pool.ended)
    (hb : ¬ Bad s g) (tp : Nat) :
    (visible s).filter (fun o => o.gen = g ∧ o.part = tp) = s.pool.calls.filter (fun o => o.gen = g ∧ o.part = tp) := by
  have hge : g ∈ s.pool.ended.map Prod.fst := List.mem_map.2 ⟨_, hg, rfl⟩
  have h1 := ended_sent hn (reach_l hn h).2 hge tp
  unfold ofTp at h1
  rw [← h1]
  unfold visible
  rw [List.filter_map, List.filter_filter]
  have h2 : (s.pool.sent.zipIdx.filter fun x =>
      ((fun o : Out => decide (o.gen = g ∧ o.part = tp)) ∘ Prod.fst) x && decide (x.2 ∈ s.stored ∧ (x.1.gen, true) ∈ s.pool.ended)) =
      s.pool.sent.zipIdx.filter ((fun o : Out => decide (o.gen = g ∧ o.part = tp)) ∘ Prod.fst) := by
    apply List.filter_congr
    intro x hx
    by_cases e : x.1.gen = g ∧ x.1.part = tp
    · have hk : s.pool.sent[x.2]? = some x.1 := by
        have := List.mem_zipIdx_iff_getElem?.1 hx
        exact this
      have hst : x.2 ∈ s.stored := by
        rcases ended_landed hn h hk (by rw [e.1]; exact hge) with k | k
        · exact k.1
        · exact absurd ⟨_, k.1, _, hk, e.1⟩ hb
      simp [e, hst, hg]
    · simp [e]
  rw [h2, ← List.filter_map]
  have h3 : s.pool.sent.zipIdx.map Prod.fst = s.pool.sent := List.zipIdx_map_fst _ _
  rw [h3]

/-- **C84** (what is lost). Of a committed transaction, readers miss exactly the records that failed. -/
theorem C84_missing_partial {c : Cfg} (hn : 0 < c.poolSize) {s : St} (h : Reach c s) {k : Nat} {o : Out}
    (hk : s.pool.sent[k]? = some o) (hg : (o.gen, true) ∈ s.pool.ended) : k ∉ s.stored ↔ k ∈ s.failed := by
  rcases ended_landed hn h hk (List.mem_map.2 ⟨_, hg, rfl⟩) with ⟨k1, k2⟩ | ⟨k1, k2⟩
  · exact ⟨fun x => absurd k1 x, fun x => absurd x k2⟩
  · exact ⟨fun _ => k1, fun _ => k2⟩

/-- **C84** (errors are kept). Every failed record's error is waiting for the commit loop or was given to the error handler, once, as long as
at most 1024 records failed; beyond that errors may be dropped. -/
theorem C84_errors_partial {c : Cfg} (hn : 0 < c.poolSize) {s : St} (h : Reach c s) :
    s.failed.Perm (s.errs ++ s.told ++ s.dropped) ∧ s.failed.Nodup ∧ (s.failed.length < 1024 → s.dropped = []) := by
  have hL := (reach_l hn h).1
  refine ⟨hL.errs, ?_, ?_⟩
  · have hnd : (s.flying.map Prod.snd ++ s.stored ++ s.failed).Nodup := hL.parts.nodup_iff.2 List.nodup_range
    exact (List.nodup_append.1 hnd).2.1
  · intro hlt
    by_contra hd
    have := hL.full hd
    unfold cap at this
    omega

/-- Nothing is committed once the loop has returned. -/
theorem stopped_run {c : Cfg} {s s' : St} {ls : List Act} (hs : s.pool.com = .stopped) (h : run c s ls = some s') :
    s'.pool.com = .stopped ∧ s'.pool.ended = s.pool.ended ∧ s'.told = s.told := by
  induction ls generalizing s with
  | nil => cases h; exact ⟨hs, rfl, rfl⟩
  | cons l ls ih =>
    obtain ⟨s1, h1, h2⟩ := Option.bind_eq_some_iff.1 h
    have key : s1.pool.com = .stopped ∧ s1.pool.ended = s.pool.ended ∧ s1.told = s.told := by
      cases l with
      | ends i ok =>
        unfold step ends at h1
        simp only at h1
        repeat' split at h1
        all_goals first
          | (cases h1; exact ⟨hs, rfl, rfl⟩)
          | simp at h1
      | handle cont =>
        unfold step handle at h1
        rw [hs] at h1
        simp at h1
      | pool l =>
        unfold step at h1
        simp only at h1
        split at h1
        · simp at h1
        obtain ⟨p, hp, rfl⟩ := Option.map_eq_some_iff.1 h1
        have hpr : ∀ q tp r, (produce s.pool q tp r).com = .stopped ∧ (produce s.pool q tp r).ended = s.pool.ended := by
          intro q tp r; unfold produce; dsimp only; split <;> exact ⟨hs, rfl⟩
        refine ⟨?_, ?_, rfl⟩
        · cases l <;> unfold Eos.step at hp <;> simp only [hs] at hp <;> (repeat' split at hp) <;>
            first
              | (cases hp; rfl)
              | (cases hp; exact (hpr _ _ _).1)
              | simp at hp
        · cases l <;> unfold Eos.step at hp <;> simp only [hs] at hp <;> (repeat' split at hp) <;>
            first
              | (cases hp; rfl)
              | (cases hp; exact (hpr _ _ _).2)
              | simp at hp
    obtain ⟨k1, k2, k3⟩ := ih key.1 h2
    exact ⟨k1, k2.trans key.2.1, k3.trans key.2.2⟩

/-- **C84** (the answer counts). When the commit loop is between two transactions, an error that waits can be received, the handler is asked about the oldest
one; after any other answer than `Continue` no transaction ends any more, whatever happens. -/
theorem C84_answer_partial {c : Cfg} {s : St} {k : Nat} {errs : List Nat} (hi : s.pool.com = .idle) (he : s.errs = k :: errs) :
    (∀ cont, ∃ s', step c s (.handle cont) = some s' ∧ s'.told = s.told ++ [k] ∧ s'.errs = errs ∧ s'.pool.ended = s.pool.ended) ∧
    ∀ ls s', run c s (.handle false :: ls) = some s' → s'.pool.ended = s.pool.ended ∧ s'.told = s.told ++ [k] := by
  have hstep : ∀ cont, step c s (.handle cont) = some { s with
      errs := errs, told := s.told ++ [k], pool := if cont then s.pool else { s.pool with com := .stopped } } := by
    intro cont
    unfold step handle
    cases cont <;> simp [hi, he, Eos.step]
  constructor
  · intro cont
    refine ⟨_, hstep cont, rfl, rfl, ?_⟩
    cases cont <;> rfl
  · intro ls s' h
    obtain ⟨s1, h1, h2⟩ := Option.bind_eq_some_iff.1 h
    rw [hstep] at h1
    cases h1
    obtain ⟨_, k2, k3⟩ := stopped_run (by simp) h2
    exact ⟨by rw [k2]; simp, by rw [k3]⟩

/-- The run of the witness: one event with offset 0 of partition 0 produces the record 7 and completes; the record fails while the commit waits for the
client, the offset record is stored. -/
def lostRun : List Act :=
  [.pool (.add ⟨1, 0, some 0⟩), .pool .give, .pool (.produce ⟨1, 0, some 0⟩ 7), .pool (.complete ⟨1, 0, some 0⟩), .pool .check, .pool .tick,
   .pool .tryFlush, .pool .swapIn, .pool .take, .pool (.beginCommit [0]), .pool .wait, .pool .wait, .ends 0 false, .ends 0 true,
   .pool (.endTxn [0]), .pool .release, .pool .release, .pool .giveBack]

/-- **C84 is violated.** A record fails while its transaction is being committed. The transaction is committed all the same, with the offset of the
event and without its record, before the error handler is asked: readers see the offset record alone. The handler's answer (here: not `Continue`, the default)
comes too late; a restarted process goes on behind the event. -/
theorem C84_violated_committed :
    ∃ s, run ⟨2, 1, 10, 20⟩ (St.init ⟨2, 1, 10, 20⟩) lostRun = some s ∧ (0, true) ∈ s.pool.ended ∧
      s.pool.calls = [⟨0, 0, .user 7⟩, ⟨0, 0, .commit 0 1⟩] ∧ visible s = [⟨0, 0, .commit 0 1⟩] ∧ s.told = [] ∧
      ∃ s', step ⟨2, 1, 10, 20⟩ s (.handle false) = some s' ∧ s'.pool.com = .stopped ∧ visible s' = visible s := by
  refine ⟨_, rfl, ?_, ?_, ?_, ?_, _, rfl, ?_, ?_⟩ <;> decide +kernel

/-- The run of the second witness: the record of the first event fails before the commit, its error waits; the `select` takes the transaction first,
then a second transaction. -/
def laterRun : List Act :=
  [.pool (.add ⟨1, 0, some 0⟩), .pool .give, .pool (.produce ⟨1, 0, some 0⟩ 7), .ends 0 false, .pool (.complete ⟨1, 0, some 0⟩), .pool .check, .pool .tick,
   .pool .tryFlush, .pool .swapIn, .pool (.add ⟨2, 0, some 1⟩), .pool .give, .pool (.produce ⟨2, 0, some 1⟩ 8), .pool (.complete ⟨2, 0, some 1⟩),
   .pool .check, .pool .take, .pool (.beginCommit [0]), .pool .wait, .pool .wait, .ends 0 true, .pool (.endTxn [0]), .pool .release, .pool .release,
   .pool .giveBack, .pool .tick, .pool .tryFlush, .pool .swapIn, .pool .take, .pool (.beginCommit [0]), .pool .wait, .pool .wait, .ends 0 true, .ends 0 true,
   .pool (.endTxn [0]), .pool .release, .pool .release, .pool .giveBack]

/-- **C84 is violated** even when the error is known before the commit begins: it waits in the channel while the transaction of the failed record and the
one after it are committed. Readers see the second event's record and both offsets, never the first event's record. -/
theorem C84_violated_waiting :
    ∃ s, run ⟨2, 1, 10, 20⟩ (St.init ⟨2, 1, 10, 20⟩) laterRun = some s ∧ s.pool.ended = [(0, true), (1, true)] ∧ s.errs = [0] ∧ s.told = [] ∧
      visible s = [⟨0, 0, .commit 0 1⟩, ⟨1, 0, .user 8⟩, ⟨1, 0, .commit 0 2⟩] := by
  refine ⟨_, rfl, ?_, ?_, ?_, ?_⟩ <;> decide +kernel

/-- Runs that meet the hypothesis of `Reach`. -/
theorem run_reach {c : Cfg} : ∀ {ls : List Act} {s s' : St}, Reach c s → (∀ l ∈ ls, l ≠ .pool (.commitFail true)) → run c s ls = some s' → Reach c s'
  | [], s, s', hr, _, h => by cases h; exact hr
  | l :: ls, s, s', hr, hl, h => by
    obtain ⟨s1, h1, h2⟩ := Option.bind_eq_some_iff.1 h
    exact run_reach (.step l hr (hl l (by simp)) h1) (fun x hx => hl x (List.mem_cons_of_mem _ hx)) h2

/-- The theorems apply: in the second witness transaction 0 is bad, transaction 1 is committed and complete. -/
example : ∃ s, Reach ⟨2, 1, 10, 20⟩ s ∧ (1, true) ∈ s.pool.ended ∧ ¬ Bad s 1 ∧ Bad s 0 ∧
    (visible s).filter (fun o => o.gen = 1 ∧ o.part = 0) = [⟨1, 0, .user 8⟩, ⟨1, 0, .commit 0 2⟩] := by
  have hd : ∃ s, run ⟨2, 1, 10, 20⟩ (St.init ⟨2, 1, 10, 20⟩) laterRun = some s ∧ s.failed = [0] ∧ (1, true) ∈ s.pool.ended ∧
      s.pool.sent[0]? = some ⟨0, 0, .user 7⟩ ∧
      (visible s).filter (fun o => o.gen = 1 ∧ o.part = 0) = [⟨1, 0, .user 8⟩, ⟨1, 0, .commit 0 2⟩] :=
    ⟨_, rfl, by decide +kernel, by decide +kernel, by decide +kernel, by decide +kernel⟩
  obtain ⟨s, h1, h2, h3, h4, h5⟩ := hd
  refine ⟨s, run_reach .init (by decide) h1, h3, ?_, ⟨0, by simp [h2], _, h4, rfl⟩, h5⟩
  rintro ⟨k, hk, o, ho, hg⟩
  rw [h2] at hk
  simp only [List.mem_singleton] at hk
  subst hk
  rw [h4] at ho
  cases ho
  cases hg

end Verif.Loss
