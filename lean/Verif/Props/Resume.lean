import Verif.Resume.Later
/-
C108. Where a partition is taken up again. The full property: through any sequence of assignments, revocations, crashes and commits, however much of the
commit log a process has read when a partition is assigned to it, the records handled in committed transactions (before a migration: by the
traditional consumer) follow each other without a gap and without repetition, and a partition is fetched from the watermark on.

It holds with the default position (the start of the partition) and a migration that is not undone, except that the whole partition may be fetched
again. With the option to start at the end, records are lost; with a migration back and forth, records are handled twice.
-/
set_option linter.unusedSectionVars false
set_option linter.unusedSimpArgs false
set_option linter.unusedVariables false
namespace Verif.Resume

/-- Partial: with the default position of the client, the records handled by the traditional consumer and then by the event sources are those from the
first offset of the group on, in order, each once; and the commit log says where they end. Missing: the position at the end
(`C108_violated_end`) and traditional consumers after the first commit (`C108_violated_mixed`). -/
theorem C108_in_order_partial {c : Cfg} (hc : c.atEnd = false) {s : S} (h : Reach c s) :
    ∃ n, s.old ++ s.done = List.range' (c.first.getD 0) n ∧ (s.log ≠ [] → s.log.getLast? = some (c.first.getD 0 + n)) := by
  obtain ⟨a, N, p, I⟩ := inv_reach h (not_blind hc h)
  have ha := I.first hc
  subst ha
  refine ⟨N - c.first.getD 0, I.seq, ?_⟩
  intro hl
  rw [I.last hl]
  have := I.le
  congr 1
  omega

/-- … and a worker that has been given all records has handled all of them: nothing is left out at the position where it took up. -/
theorem C108_all_partial {c : Cfg} (hc : c.atEnd = false) {s : S} (h : Reach c s) {hi : Int} (hp : s.phase = .ready hi s.size) :
    s.old ++ s.done ++ s.pend = List.range' (c.first.getD 0) (s.size - c.first.getD 0) := by
  obtain ⟨a, N, p, I⟩ := inv_reach h (not_blind hc h)
  have ha := I.first hc
  subst ha
  have h1 := (I.ready hi s.size hp).1
  have h2 := I.size
  have h3 := I.le
  rw [I.seq, I.pend]
  have e1 : N = c.first.getD 0 + (N - c.first.getD 0) := by omega
  conv => lhs; arg 2; rw [e1]
  rw [List.range'_append_1]
  congr 1
  omega

example : ((run ⟨false, true, some 2⟩ (S.init ⟨false, true, some 2⟩ 4) [.foreign 1, .assign, .ready, .give, .commit 1, .arrive, .arrive, .restart, .assign,
      .readLog, .ready, .give, .give, .give, .commit 1, .autocommit 4, .restart, .assign, .readLog, .readLog, .ready, .give, .give]).any
    fun s => decide (s.old = [2] ∧ s.done = [3, 4] ∧ s.pend = [5] ∧ s.log = [4, 5] ∧ s.phase = .ready 6 6 ∧ s.size = 6)) = true := by
  decide +kernel

/-- Partial: whatever the position of the client, the same holds from some first record on, as long as no assignment finds that this process has read
nothing of the commit log while there is something in it and the group has no offset. -/
theorem C108_end_partial {c : Cfg} {s : S} (h : Reach c s) (hb : s.blind = false) :
    ∃ a n, s.old ++ s.done = List.range' a n ∧ s.log.getLast? = if s.log = [] then none else some (a + n) := by
  obtain ⟨a, N, p, I⟩ := inv_reach h hb
  refine ⟨a, N - a, I.seq, ?_⟩
  split
  · rename_i hl; rw [hl]; rfl
  · rename_i hl
    rw [I.last hl]
    have := I.le
    congr 1
    omega

/-- The client never starts beyond the watermark that the worker will read, and without a commit it starts exactly where the group is. This is what
the models of groups of consumers (C93, C94, C96, C102) take for granted. -/
theorem C108_start {c : Cfg} {s : S} (h : Reach c s) (hb : s.blind = false) {st : Nat} (hp : s.phase = .assigned st) :
    (∀ v ∈ s.log.getLast?, st ≤ v) ∧ (s.log = [] → s.done = [] ∧ ∃ a, s.old = List.range' a (st - a) ∧ a ≤ st) := by
  obtain ⟨a, N, p, I⟩ := inv_reach h hb
  obtain ⟨h1, h2⟩ := I.assigned st hp
  constructor
  · intro v hv
    by_cases hl : s.log = []
    · rw [hl] at hv; cases hv
    · rw [I.last hl] at hv
      cases hv
      exact h1
  · intro hl
    have h3 := (I.empty hl).1
    refine ⟨h3, a, ?_, ?_⟩
    · rw [h2 hl, ← I.seq, h3, List.append_nil]
    · rw [h2 hl]; exact I.le

/-- Partial: a process that has read the commit log to its end fetches from the watermark on. Missing: one that has not, see
`C108_violated_reread`. -/
theorem C108_resume_partial {c : Cfg} {s s' : S} (h : Reach c s) (hb : s.blind = false) (hr : s.read = s.log.length) {w : Nat}
    (hw : s.log.getLast? = some w) (hs : step c s .assign = some s') : s'.phase = .assigned w := by
  obtain ⟨a, N, p, I⟩ := inv_reach h hb
  simp only [step] at hs
  split at hs
  · simp only [Option.some.injEq] at hs
    subst hs
    show Phase.assigned _ = _
    rw [watermark_full hr hw]
    have := (I.bound w (List.mem_of_getLast? hw)).1
    unfold adjust
    rw [if_pos (by omega)]
    rfl
  · cases hs

/-- In every configuration, also with migrations back and forth: no transaction that ends later has a record below a watermark that was
committed. What was left out then is left out for ever. -/
theorem C108_never_again {c : Cfg} {n : Nat} {as bs : List Act} {s s' : S} (h1 : run c (S.init c n) as = some s) (h2 : run c s bs = some s') :
    ∀ o ∈ s'.done, o ∈ s.done ∨ ∀ v ∈ s.log, v ≤ o :=
  (new_run bs (new_run as (up_init c n) h1).1 h2).2.2.2

/-- The start of `C108_violated_end`: three records are handled and committed by an event source that began at the end of an empty topic; the process is
started again while two more arrive. -/
def lost : List Act :=
  [.assign, .ready, .arrive, .arrive, .arrive, .give, .give, .give, .commit 3, .restart, .arrive, .arrive, .assign, .readLog, .ready, .arrive, .give, .commit 1]

/-- Violated: with `ConsumeResetOffset(AtEnd)` a process that is started again may be assigned its partition before it has read the commit log; it then
fetches from the end, although the commit log says where to go on. The records that came while it was away are never handled. -/
theorem C108_violated_end :
    ∃ s, run ⟨true, false, none⟩ (S.init ⟨true, false, none⟩ 0) lost = some s ∧ s.done = [0, 1, 2, 5] ∧ s.log = [3, 6] ∧
      ∀ bs s', run ⟨true, false, none⟩ s bs = some s' → 3 ∉ s'.done ∧ 4 ∉ s'.done := by
  refine ⟨_, rfl, by decide +kernel, by decide +kernel, ?_⟩
  intro bs s' hr
  have main := C108_never_again (n := 0) (as := lost) (c := ⟨true, false, none⟩) rfl hr
  constructor
  · intro hm
    rcases main 3 hm with h | h
    · revert h; decide +kernel
    · exact absurd (h 6 (by decide +kernel)) (by decide)
  · intro hm
    rcases main 4 hm with h | h
    · revert h; decide +kernel
    · exact absurd (h 6 (by decide +kernel)) (by decide)

theorem run_append (c : Cfg) : ∀ (as bs : List Act) (s : S), run c s (as ++ bs) = (run c s as).bind fun t => run c t bs := by
  intro as
  induction as with
  | nil => intro bs s; rfl
  | cons a as ih =>
    intro bs s
    simp only [List.cons_append, run, Option.bind_assoc]
    congr 1
    funext t
    exact ih bs t

theorem run_gives (c : Cfg) (s : S) : ∀ (m pos : Nat), s.phase = .ready (pos : Int) pos → pos + m ≤ s.size →
    run c s (List.replicate m .give) = some { s with phase := .ready ((pos + m : Nat) : Int) (pos + m), pend := s.pend ++ List.range' pos m } := by
  intro m
  induction m generalizing s with
  | zero => intro pos hp _; simp [run, ← hp]
  | succ m ih =>
    intro pos hp hle
    have hst : step c s .give = some { s with phase := .ready ((pos + 1 : Nat) : Int) (pos + 1), pend := s.pend ++ [pos] } := by
      simp only [step, hp]
      rw [if_pos (by omega), if_pos (Int.le_refl _)]
    rw [List.replicate_succ, run, hst, Option.bind_some, ih _ (pos + 1) rfl (by show _ ≤ s.size; omega)]
    simp only [Option.some.injEq, S.mk.injEq, List.append_assoc, true_and, and_true]
    refine ⟨by congr 1 <;> (try push_cast) <;> omega, ?_⟩
    rw [List.range'_succ]
    rfl

/-- Violated: after a restart, a partition whose `N + 1` records were all handled and committed may be fetched from its very start: the commit log was not yet
read when the partition was assigned. (The worker passes over the records; nothing is handled twice.) -/
theorem C108_violated_reread (N : Nat) :
    ∃ as s, run ⟨false, false, none⟩ (S.init ⟨false, false, none⟩ (N + 1)) as = some s ∧ s.phase = .assigned 0 ∧ s.log = [N + 1] ∧
      s.done = List.range (N + 1) := by
  refine ⟨[.assign, .ready, .give] ++ (List.replicate N .give ++ [.commit (N + 1), .restart, .assign]),
    { size := N + 1, log := [N + 1], read := 0, group := none, phase := .assigned 0, pend := [], done := List.range' 0 (N + 1), old := [], blind := false },
    ?_, rfl, rfl, (List.range_eq_range' ..).symm⟩
  have h1 : run ⟨false, false, none⟩ (S.init ⟨false, false, none⟩ (N + 1)) [.assign, .ready, .give] =
      some { size := N + 1, log := [], read := 0, group := none, phase := .ready ((1 : Nat) : Int) 1, pend := [0], done := [], old := [], blind := false } := by
    simp [run, step, S.init, adjust, watermark, clientOffset]
  rw [run_append, h1, Option.bind_some, run_append, run_gives _ _ N 1 rfl (by show 1 + N ≤ N + 1; omega), Option.bind_some]
  have h2 : [0] ++ List.range' 1 N = List.range' 0 (N + 1) := by rw [List.range'_succ]; rfl
  simp only [h2]
  have h3 : (List.range' 0 (N + 1)).take (N + 1) = List.range' 0 (N + 1) := List.take_of_length_le (by simp)
  have h4 : (List.range' 0 (N + 1)).drop (N + 1) = [] := List.drop_of_length_le (by simp)
  have h5 : (List.range' 0 (N + 1)).getLast? = some N := by rw [List.getLast?_range']; simp
  simp [run, step, h3, h4, h5, adjust, watermark, clientOffset]

/-- Violated: a mixed fleet, as `CommitOffsets` is meant for. The event source handles record 0 and its client commits that to the group; a traditional
consumer has the partition, handles 1 and 2 and commits; the partition comes back to the event source, which goes by its commit log and
handles 1 and 2 once more. If it had not read its commit log yet, it would have gone on at 3. -/
theorem C108_violated_mixed :
    (∃ s, run ⟨false, true, none⟩ (S.init ⟨false, true, none⟩ 4) [.assign, .ready, .give, .commit 1, .autocommit 1, .readLog, .revoke, .foreign 2, .assign, .ready,
        .give, .give, .commit 2] = some s ∧ s.old = [1, 2] ∧ s.done = [0, 1, 2]) ∧
    (∃ s, run ⟨false, true, none⟩ (S.init ⟨false, true, none⟩ 4) [.assign, .ready, .give, .commit 1, .autocommit 1, .revoke, .foreign 2, .assign, .readLog, .ready,
        .give, .commit 1] = some s ∧ s.old = [1, 2] ∧ s.done = [0, 3]) :=
  ⟨⟨_, rfl, by decide +kernel, by decide +kernel⟩, ⟨_, rfl, by decide +kernel, by decide +kernel⟩⟩

end Verif.Resume
