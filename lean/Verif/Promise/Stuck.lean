import Verif.Promise.Proofs
/-
Every schedule ends; and how the workers and the client come to wait for each other.
-/
set_option linter.unusedSimpArgs false
namespace Verif.Promise
open Verif.Scheduler (upd upd_self upd_ne)

/-! ### Every schedule ends -/

/-- The sum of the values below `N`. -/
def sumTo (f : Nat → Nat) : Nat → Nat
  | 0 => 0
  | n + 1 => sumTo f n + f n

theorem sumTo_congr {f g : Nat → Nat} {N : Nat} (h : ∀ p, p < N → f p = g p) : sumTo f N = sumTo g N := by
  induction N with
  | zero => rfl
  | succ n ih => simp only [sumTo]; rw [ih fun p hp => h p (by omega), h n (by omega)]

theorem sumTo_one {f g : Nat → Nat} {N p : Nat} (hp : p < N) (h : ∀ q, q ≠ p → f q = g q) : sumTo f N + g p = sumTo g N + f p := by
  induction N with
  | zero => omega
  | succ n ih =>
    simp only [sumTo]
    by_cases hn : p = n
    · subst hn
      rw [sumTo_congr (f := f) (g := g) fun q hq => h q (by omega)]
      omega
    · have := ih (by omega)
      have := h n (fun hc => hn hc.symm)
      omega

/-- The steps an event that is not yet handled still has before it. -/
def evWork (l : List Ev) : Nat := (l.map fun e => 4 * e.recs + 1).sum

/-- The steps a handler still has before it. -/
def phWork : Phase → Nat
  | .idle => 0
  | .producing _ l => 4 * l

/-- The steps of one worker. -/
def work (s : Sys) (p : Nat) : Nat := evWork (s.evq p) + phWork (s.ph p) + (s.jobs p).length

/-- An upper bound of the steps that remain until nothing moves by itself. -/
def todo (N : Nat) (s : Sys) : Nat := sumTo (work s) N + 3 * s.buf.length + if s.posting.isSome then 2 else 0

/-- Only the first `N` workers have anything to do. -/
def Outside (N : Nat) (s : Sys) : Prop :=
  (∀ p, N ≤ p → s.evq p = [] ∧ s.jobs p = [] ∧ s.ph p = .idle) ∧ (∀ b ∈ s.batches, b.1.part < N) ∧ ∀ e, s.posting = some e → e.part < N

theorem own_step {c : Cfg} {N : Nat} {s s' : Sys} {a : Act} (I : Inv c s) (O : Outside N s) (ha : ∀ p n, a ≠ .arrive p n) (h : step c s a = some s') :
    Outside N s' ∧ todo N s' < todo N s := by
  obtain ⟨O1, O2, O3⟩ := O
  cases a with
  | arrive p n => exact absurd rfl (ha p n)
  | handle p =>
    simp only [step] at h
    split at h
    · rename_i e rest hph hev
      simp only [Option.some.injEq] at h; subst h
      have hp : p < N := by
        by_contra hc
        rw [(O1 p (by omega)).1] at hev; simp at hev
      have hm := I.mine p e (by rw [hev]; simp)
      refine ⟨⟨fun q hq => ?_, fun b hb => ?_, O3⟩, ?_⟩
      · have hqp : q ≠ p := by omega
        dsimp only; rw [upd_ne _ _ hqp, upd_ne _ _ hqp]; exact O1 q hq
      · simp only [List.mem_append, List.mem_singleton] at hb
        rcases hb with hb | rfl
        · exact O2 b hb
        · exact hm.1 ▸ hp
      · have := sumTo_one (f := work { s with evq := upd s.evq p rest, ph := upd s.ph p (.producing e e.recs), batches := s.batches ++ [(e, e.recs)] }) (g := work s) hp
          (by intro q hq; simp only [work, upd_ne _ _ hq])
        simp only [work, upd_self, hev, hph, evWork, phWork, List.map_cons, List.sum_cons] at this
        simp only [todo]
        omega
    · simp at h
  | produce p =>
    simp only [step] at h
    split at h
    · rename_i e l hph
      split at h
      · simp only [Option.some.injEq] at h; subst h
        have hp : p < N := by
          by_contra hc
          rw [(O1 p (by omega)).2.2] at hph; simp at hph
        refine ⟨⟨fun q hq => ?_, O2, O3⟩, ?_⟩
        · have hqp : q ≠ p := by omega
          dsimp only; rw [upd_ne _ _ hqp]; exact O1 q hq
        · have := sumTo_one (f := work { s with buf := s.buf ++ [e], ph := upd s.ph p (if l = 0 then .idle else .producing e l) }) (g := work s) hp
            (by intro q hq; simp only [work, upd_ne _ _ hq])
          have hw : phWork (if l = 0 then .idle else .producing e l) = 4 * l := by
            split
            · rename_i hl; subst hl; rfl
            · rfl
          simp only [work, upd_self, hph, hw] at this
          simp only [phWork] at this
          simp only [todo, List.length_append, List.length_singleton]
          omega
      · simp at h
    · simp at h
  | promise i =>
    simp only [step] at h
    split at h
    · rename_i e hpo hbuf
      have hi : i < s.buf.length := (List.getElem?_eq_some_iff.1 hbuf).1
      have hlen : (s.buf.eraseIdx i).length = s.buf.length - 1 := List.length_eraseIdx_of_lt hi
      split at h
      · simp at h
      · rename_i n hp
        have hmem := pending_mem hp
        split at h
        · simp only [Option.some.injEq] at h; subst h
          refine ⟨⟨O1, fun b hb => O2 b (List.mem_filter.1 hb).1, fun f hf => ?_⟩, ?_⟩
          · simp only [Option.some.injEq] at hf; subst hf; exact O2 _ hmem
          · simp only [todo, hlen, hpo]
            have : sumTo (work { s with buf := s.buf.eraseIdx i, posting := some e, batches := s.batches.filter fun b => b.1 ≠ e }) N = sumTo (work s) N := rfl
            rw [this]
            simp
            omega
        · simp only [Option.some.injEq] at h; subst h
          refine ⟨⟨O1, fun b hb => ?_, fun f hf => O3 f hf⟩, ?_⟩
          · rcases countDown_mem I.keys hb with ⟨_, h2⟩ | ⟨h1, m, h2, h3⟩
            · exact O2 b h2
            · rw [h1]; exact O2 _ h2
          · simp only [todo, hlen, hpo]
            have : sumTo (work { s with buf := s.buf.eraseIdx i, batches := countDown e s.batches }) N = sumTo (work s) N := rfl
            simp only [hpo] at this
            rw [this]
            simp
            omega
    · simp at h
  | post =>
    simp only [step] at h
    split at h
    · rename_i e hpo
      split at h
      · simp only [Option.some.injEq] at h; subst h
        have hp : e.part < N := O3 e hpo
        refine ⟨⟨fun q hq => ?_, O2, by simp⟩, ?_⟩
        · have hqp : q ≠ e.part := by omega
          dsimp only; rw [upd_ne _ _ hqp]; exact O1 q hq
        · have := sumTo_one (f := work { s with posting := none, jobs := upd s.jobs e.part (s.jobs e.part ++ [e]) }) (g := work s) hp
            (by intro q hq; simp only [work, upd_ne _ _ hq])
          simp only [work, upd_self, List.length_append, List.length_singleton] at this
          simp only [todo, hpo]
          simp
          omega
      · simp at h
    · simp at h
  | job p =>
    simp only [step] at h
    split at h
    · rename_i e rest hph hj
      simp only [Option.some.injEq] at h; subst h
      have hp : p < N := by
        by_contra hc
        rw [(O1 p (by omega)).2.1] at hj; simp at hj
      refine ⟨⟨fun q hq => ?_, O2, O3⟩, ?_⟩
      · have hqp : q ≠ p := by omega
        dsimp only; rw [upd_ne _ _ hqp]; exact O1 q hq
      · have := sumTo_one (f := work { s with jobs := upd s.jobs p rest, slots := upd s.slots p (s.slots p - 1), done := s.done ++ [e] }) (g := work s) hp
          (by intro q hq; simp only [work, upd_ne _ _ hq])
        simp only [work, upd_self, hj, List.length_cons] at this
        simp only [todo]
        omega
    · simp at h

theorem outside_step {c : Cfg} {s s' : Sys} {a : Act} (I : Inv c s) (O : ∃ N, Outside N s) (h : step c s a = some s') : ∃ N, Outside N s' := by
  obtain ⟨N, O⟩ := O
  by_cases ha : ∃ p n, a = .arrive p n
  · obtain ⟨p, n, rfl⟩ := ha
    simp only [step] at h
    split at h
    · simp only [Option.some.injEq] at h; subst h
      refine ⟨max N (p + 1), fun q hq => ?_, fun b hb => ?_, fun e he => ?_⟩
      · have hqp : q ≠ p := by omega
        dsimp only; rw [upd_ne _ _ hqp]; exact O.1 q (by omega)
      · have := O.2.1 b hb; omega
      · have := O.2.2 e he; omega
    · simp at h
  · exact ⟨N, (own_step I O (fun p n e => ha ⟨p, n, e⟩) h).1⟩

theorem outside_run {c : Cfg} {as : List Act} {s s' : Sys} (I : Inv c s) (O : ∃ N, Outside N s) (h : run c s as = some s') : ∃ N, Outside N s' := by
  induction as generalizing s with
  | nil => simp only [run, Option.some.injEq] at h; subst h; exact O
  | cons a as ih =>
    simp only [run, Option.bind_eq_some_iff] at h
    obtain ⟨s1, e1, e2⟩ := h
    exact ih (inv_step I e1) (outside_step I O e1) e2

theorem outside_reach {c : Cfg} {s : Sys} (h : Reach c s) : ∃ N, Outside N s := by
  obtain ⟨as, h⟩ := h
  exact outside_run (inv_init c) ⟨0, by simp [Outside, Sys.init]⟩ h

theorem own_run {c : Cfg} {N : Nat} {as : List Act} {s s' : Sys} (I : Inv c s) (O : Outside N s) (ha : ∀ a ∈ as, ∀ p n, a ≠ .arrive p n) (h : run c s as = some s') :
    as.length + todo N s' ≤ todo N s := by
  induction as generalizing s with
  | nil => simp only [run, Option.some.injEq] at h; subst h; simp
  | cons a as ih =>
    simp only [run, Option.bind_eq_some_iff] at h
    obtain ⟨s1, e1, e2⟩ := h
    obtain ⟨O', hd⟩ := own_step I O (ha a (by simp)) e1
    have := ih (inv_step I e1) O' (fun b hb => ha b (by simp [hb])) e2
    simp only [List.length_cons]
    omega

/-! ### The deadlock -/

theorem run_append {c : Cfg} {as bs : List Act} {s s1 s2 : Sys} (h1 : run c s as = some s1) (h2 : run c s1 bs = some s2) : run c s (as ++ bs) = some s2 := by
  induction as generalizing s with
  | nil => simp only [run, Option.some.injEq] at h1; subst h1; exact h2
  | cons a as ih =>
    simp only [run, Option.bind_eq_some_iff] at h1
    obtain ⟨s', e1, e2⟩ := h1
    simp only [List.cons_append, run, e1, Option.bind_some]
    exact ih e2

/-- Worker 0 is at rest, `n` of its jobs are waiting. -/
structure Rest (c : Cfg) (n : Nat) (s : Sys) : Prop where
  ph : s.ph 0 = .idle
  evq : s.evq 0 = []
  slots : s.slots 0 = n
  jobs : (s.jobs 0).length = n
  buf : s.buf = []
  posting : s.posting = none
  batches : s.batches = []

theorem rest_step {c : Cfg} {n : Nat} {s : Sys} (R : Rest c n s) (hn : n < c.asyncSize) (hp : n < c.maxPending) (hB : 0 < c.maxBuffered) (hI : 0 < c.inputSize) :
    ∃ s', run c s [.arrive 0 0, .handle 0, .produce 0, .promise 0, .post] = some s' ∧ Rest c (n + 1) s' := by
  obtain ⟨q1, q2, q3, q4, q5, q6, q7⟩ := R
  simp [run, step, q1, q2, q3, q4, q5, q6, q7, upd, Sys.buffered, pending, hn, hp, hB, hI]
  constructor <;> simp [q1, q2, q3, q4, q5, q6, q7, upd]

theorem rest_reach {c : Cfg} (hB : 0 < c.maxBuffered) (hI : 0 < c.inputSize) (n : Nat) (hn : n ≤ c.asyncSize) (hp : n ≤ c.maxPending) :
    ∃ as s, run c Sys.init as = some s ∧ Rest c n s := by
  induction n with
  | zero => exact ⟨[], _, rfl, by constructor <;> rfl⟩
  | succ n ih =>
    obtain ⟨as, s, h, R⟩ := ih (by omega) (by omega)
    obtain ⟨s', h', R'⟩ := rest_step R (by omega) (by omega) hB hI
    exact ⟨_, s', run_append h h', R'⟩

/-- A promise of worker 0 waits. -/
structure Wait (c : Cfg) (n : Nat) (s : Sys) : Prop where
  ph : s.ph 0 = .idle
  evq : s.evq 0 = []
  slots : s.slots 0 = n + 1
  jobs : (s.jobs 0).length = n
  buf : s.buf.length = 0
  posting : ∃ e, s.posting = some e ∧ e.part = 0

theorem wait_start {c : Cfg} {n : Nat} {s : Sys} (R : Rest c n s) (hp : n < c.maxPending) (hB : 0 < c.maxBuffered) (hI : 0 < c.inputSize) :
    ∃ s', run c s [.arrive 0 0, .handle 0, .produce 0, .promise 0] = some s' ∧ Wait c n s' := by
  obtain ⟨q1, q2, q3, q4, q5, q6, q7⟩ := R
  simp [run, step, q1, q2, q3, q4, q5, q6, q7, upd, Sys.buffered, pending, hp, hB, hI]
  constructor <;> simp [q1, q2, q3, q4, q5, q6, q7, upd]

/-- A promise of worker 0 waits, its handler has given `m` records to the client and has `l` left. -/
structure Fill (c : Cfg) (n m l : Nat) (s : Sys) : Prop where
  ph : ∃ e, s.ph 0 = .producing e l
  jobs : (s.jobs 0).length = n
  buf : s.buf.length = m
  posting : ∃ e, s.posting = some e ∧ e.part = 0

theorem fill_start {c : Cfg} {n : Nat} {s : Sys} (W : Wait c n s) (l : Nat) (hp : n + 1 < c.maxPending) (hI : 0 < c.inputSize) :
    ∃ s', run c s [.arrive 0 l, .handle 0] = some s' ∧ Fill c n 0 (l + 1) s' := by
  obtain ⟨q1, q2, q3, q4, q5, e, q6, q7⟩ := W
  simp [run, step, q1, q2, q3, q4, q5, q6, q7, upd, hp, hI]
  constructor <;> simp [q1, q2, q3, q4, q5, q6, q7, upd]

theorem fill_step {c : Cfg} {n m l : Nat} {s : Sys} (F : Fill c n m (l + 2) s) (hB : m + 1 < c.maxBuffered) :
    ∃ s', run c s [.produce 0] = some s' ∧ Fill c n (m + 1) (l + 1) s' := by
  obtain ⟨⟨f, q1⟩, q2, q3, e, q4, q5⟩ := F
  simp [run, step, q1, q2, q3, q4, q5, upd, Sys.buffered, hB]
  constructor <;> simp [q1, q2, q3, q4, q5, upd]

theorem fill_reach {c : Cfg} {n l : Nat} {s : Sys} (m : Nat) (F : Fill c n 0 (m + l + 1) s) (hm : m + 1 ≤ c.maxBuffered) :
    ∃ as s', run c s as = some s' ∧ Fill c n m (l + 1) s' := by
  induction m generalizing l with
  | zero => exact ⟨[], s, rfl, by simpa using F⟩
  | succ m ih =>
    obtain ⟨as, s1, h, F1⟩ := ih (l := l + 1) (by rw [show m + (l + 1) + 1 = m + 1 + l + 1 by omega]; exact F) (by omega)
    obtain ⟨s2, h', F2⟩ := fill_step F1 (by omega)
    exact ⟨_, s2, run_append h h', F2⟩

/-- The promise waits for worker `p`, and worker `p` waits for the client. -/
structure Stuck (c : Cfg) (p : Nat) (s : Sys) : Prop where
  ph : ∃ e l, s.ph p = .producing e l
  jobs : c.asyncSize ≤ (s.jobs p).length
  posting : ∃ e, s.posting = some e ∧ e.part = p
  full : c.maxBuffered ≤ s.buffered

theorem stuck_reach {c : Cfg} (hB : 0 < c.maxBuffered) (hI : 0 < c.inputSize) (hP : c.asyncSize + 2 ≤ c.maxPending) :
    ∃ s, Reach c s ∧ Stuck c 0 s := by
  obtain ⟨as, s, h, R⟩ := rest_reach hB hI c.asyncSize (Nat.le_refl _) (by omega)
  obtain ⟨s1, h1, W⟩ := wait_start R (by omega) hB hI
  obtain ⟨s2, h2, F⟩ := fill_start W (c.maxBuffered - 1) (by omega) hI
  obtain ⟨bs, s3, h3, F'⟩ := fill_reach (l := 0) (c.maxBuffered - 1) F (by omega)
  obtain ⟨⟨e, q1⟩, q2, q3, q4⟩ := F'
  refine ⟨s3, ⟨_, run_append h (run_append h1 (run_append h2 h3))⟩, ⟨e, _, q1⟩, by omega, q4, ?_⟩
  obtain ⟨f, q4, _⟩ := q4
  simp only [Sys.buffered, q3, q4]
  simp
  omega

theorem stuck_step {c : Cfg} {p : Nat} {s s' : Sys} {a : Act} (S : Stuck c p s) (h : step c s a = some s') : Stuck c p s' := by
  obtain ⟨⟨e, l, q1⟩, q2, ⟨f, q3, q4⟩, q5⟩ := S
  cases a with
  | arrive q n =>
    simp only [step] at h
    split at h
    · simp only [Option.some.injEq] at h; subst h; exact ⟨⟨e, l, q1⟩, q2, ⟨f, q3, q4⟩, q5⟩
    · simp at h
  | handle q =>
    simp only [step] at h
    split at h
    · rename_i hq _
      simp only [Option.some.injEq] at h; subst h
      have hqp : p ≠ q := by rintro rfl; rw [q1] at hq; simp at hq
      exact ⟨⟨e, l, by dsimp only; rw [upd_ne _ _ hqp]; exact q1⟩, q2, ⟨f, q3, q4⟩, q5⟩
    · simp at h
  | produce q =>
    simp only [step] at h
    split at h
    · rw [if_neg (by omega)] at h; simp at h
    · simp at h
  | promise i => simp [step, q3] at h
  | post => simp [step, q3, q4, Nat.not_lt.2 q2] at h
  | job q =>
    simp only [step] at h
    split at h
    · rename_i hq _
      simp only [Option.some.injEq] at h; subst h
      have hqp : p ≠ q := by rintro rfl; rw [q1] at hq; simp at hq
      exact ⟨⟨e, l, q1⟩, by dsimp only; rw [upd_ne _ _ hqp]; exact q2, ⟨f, q3, q4⟩, q5⟩
    · simp at h

theorem stuck_run {c : Cfg} {p : Nat} {as : List Act} {s s' : Sys} (S : Stuck c p s) (h : run c s as = some s') : Stuck c p s' := by
  induction as generalizing s with
  | nil => simp only [run, Option.some.injEq] at h; subst h; exact S
  | cons a as ih =>
    simp only [run, Option.bind_eq_some_iff] at h
    obtain ⟨s1, e1, e2⟩ := h
    exact ih (stuck_step S e1) e2

end Verif.Promise
