import Verif.Scheduler.Wakeup
/-
Properties C16-C20: the asynchronous job scheduler (streams/async_scheduler.go, streams/async_item_queue.go).
-/
namespace Verif.Scheduler

set_option linter.unusedSectionVars false
set_option linter.unusedTactic false
set_option linter.unusedSimpArgs false

variable {K : Type} [DecidableEq K]

/-! ### Example runs -/

/-- One worker goroutine (0), queue depth 2, one key. Goroutine 1 schedules three jobs of key 0; the third finds the queue full. -/
def exJob (i : Nat) : Job Nat := { key := 0, caller := 1, id := i }

/-- The run up to the blocked third job. -/
def exFill : List (Label Nat) :=
  [.call (exJob 0), .lock 1 none, .send 1, .call (exJob 1), .lock 1 none, .call (exJob 2), .lock 1 none]

/-- The worker goroutine takes the worker and processes one job. -/
def exWork : List (Label Nat) := [.eval 0, .recv 0, .peek 0, .finish 0, .complete 0, .release 0, .send 0]

def exConfig : Config := { concurrency := 1, depth := 2, maxKeys := 1 }

/-! ### C16 -/

/-- C16. Two goroutines that are inside the processor call with jobs of the same key are the same goroutine. -/
theorem C16_one_job_per_key {c : Config} {s : State K} (h : Reach c s) {t t' w w' : Nat} {x x' : Job K}
    (h1 : s.threads t = .wProc w x) (h2 : s.threads t' = .wProc w' x') (hk : x.key = x'.key) : t = t' ∧ x = x' := by
  have G := (good_reach h).1
  have C := coh_view s
  have p1 : s.view.proc t = some (w, x) := by simp [State.view, h1, Phase.proc]
  have p2 : s.view.proc t' = some (w', x') := by simp [State.view, h2, Phase.proc]
  have m1 := G.procMap _ _ _ p1
  have m2 := G.procMap _ _ _ p2
  rw [hk] at m1
  have e := nodup_fst_inj G.keysNodup m1 m2
  subst e
  have et := G.hold_inj (C.proc_hold _ _ _ p1) (C.proc_hold _ _ _ p2)
  subst et
  rw [h1] at h2
  simp only [Phase.wProc.injEq, true_and] at h2
  exact ⟨rfl, h2⟩

/-- The history of one key, read off the log alone: start, completion, start, completion, … -/
def OneAfterTheOther (k : K) (log : List (Ev K)) : Prop :=
  ∃ xs, busyLog k log = pairs xs ∨ ∃ x, busyLog k log = pairs xs ++ [.start x]

/-- C16. In every execution the starts and completions of a key alternate: a job starts only after the completion of the previous job of its key was submitted. -/
theorem C16_history {c : Config} {s : State K} (h : Reach c s) (k : K) : OneAfterTheOther k s.log := by
  obtain ⟨A, HS, _⟩ := (good_reach h).2
  rcases HS k with ⟨b, _⟩ | ⟨_, _, x, _, _, b⟩ | ⟨_, _, x, xs, _, _, _, b⟩
  · exact ⟨A k, Or.inl b⟩
  · exact ⟨A k, Or.inr ⟨x, b⟩⟩
  · exact ⟨xs, Or.inr ⟨x, b⟩⟩

/-- Two worker goroutines, two keys: both run at the same time, each on its own key. -/
example : ∃ s : State Nat, run (init { concurrency := 2, depth := 2, maxKeys := 2 })
    [.call ⟨0, 2, 0⟩, .lock 2 none, .send 2, .call ⟨1, 3, 1⟩, .lock 3 none, .send 3, .call ⟨0, 2, 2⟩, .lock 2 none,
     .eval 0, .recv 0, .peek 0, .eval 1, .recv 1, .peek 1] = some s ∧
    s.threads 0 = .wProc 0 ⟨0, 2, 0⟩ ∧ s.threads 1 = .wProc 1 ⟨1, 3, 1⟩ ∧ busyLog 0 s.log = [.start ⟨0, 2, 0⟩] := by
  refine ⟨_, rfl, ?_, ?_, ?_⟩ <;> decide

/-! ### C17 -/

/-- The starts of a key, in order, are what the alternating log shows. -/
theorem starts_of_busyLog (k : K) (log : List (Ev K)) :
    (starts log).filter (fun x => decide (x.key = k)) = starts (busyLog k log) := by
  induction log with
  | nil => rfl
  | cons e log ih =>
    cases e with
    | sched x =>
      have h1 : starts (Ev.sched x :: log) = starts log := by simp [starts]
      have h2 : busyLog k (Ev.sched x :: log) = busyLog k log := by simp [busyLog]
      rw [h1, h2, ih]
    | comp x =>
      have h1 : starts (Ev.comp x :: log) = starts log := by simp [starts]
      have h2 : starts (busyLog k (Ev.comp x :: log)) = starts (busyLog k log) := by
        by_cases e : x.key = k <;> simp [busyLog, starts, List.filter_cons, e]
      rw [h1, h2, ih]
    | start x =>
      have h1 : starts (Ev.start x :: log) = x :: starts log := by simp [starts]
      have h2 : starts (busyLog k (Ev.start x :: log)) = if x.key = k then x :: starts (busyLog k log) else starts (busyLog k log) := by
        by_cases e : x.key = k <;> simp [busyLog, starts, List.filter_cons, e]
      rw [h1, h2, List.filter_cons, ih]
      by_cases e : x.key = k <;> simp [e]

theorem starts_pairs (xs : List (Job K)) : starts (pairs xs) = xs := by
  induction xs with
  | nil => rfl
  | cons x xs ih => simp only [pairs, List.flatMap_cons, starts, List.filterMap_append] at *; rw [ih]; simp

/-- C17. The jobs of one goroutine and one key start in the order in which they were scheduled, none twice and none skipped. -/
theorem C17_fifo {c : Config} {s : State K} (h : Reach c s) (g : Nat) (k : K) :
    (starts s.log).filter (fun x => decide (x.caller = g ∧ x.key = k)) <+: (scheds s.log).filter (fun x => decide (x.caller = g ∧ x.key = k)) := by
  have G := (good_reach h).1
  obtain ⟨A, HS, HO⟩ := (good_reach h).2
  have key : ∀ l : List (Job K), l.filter (fun x => decide (x.caller = g ∧ x.key = k)) =
      (l.filter (fun x => decide (x.key = k))).filter (fun x => decide (x.caller = g)) := by
    intro l; rw [List.filter_filter]; congr 1; funext x; simp
  obtain ⟨d, e1, _⟩ := HO g k
  have e1' : (scheds s.log).filter (fun x => decide (x.caller = g ∧ x.key = k)) =
      sub g k (A k) ++ sub g k (s.view.kq k) ++ sub g k (s.view.pend g).toList ++ d := e1
  rw [e1', key (starts s.log), starts_of_busyLog]
  have hA : sub g k (A k) = ((A k).filter (fun x => decide (x.key = k))).filter (fun x => decide (x.caller = g)) := key (A k)
  -- the jobs taken out of the queue all have key `k`
  rcases HS k with ⟨b, _⟩ | ⟨t, w, x, hp, hx, b⟩ | ⟨t, w, x, xs, hp, hx, ha, b⟩
  · have hb : busyLog k s.log = pairs (A k) := b
    rw [hb, starts_pairs]
    have : (A k).filter (fun x => decide (x.key = k)) = A k := by
      have := starts_of_busyLog k s.log
      rw [hb, starts_pairs] at this
      rw [← this, List.filter_filter]; simp
    rw [hA, this]
    simp only [List.append_assoc]
    exact List.prefix_append _ _
  · have hb : busyLog k s.log = pairs (A k) ++ [.start x] := b
    have hst : starts (busyLog k s.log) = A k ++ [x] := by rw [hb, starts_append, starts_pairs]; rfl
    have hf : (A k ++ [x]).filter (fun x => decide (x.key = k)) = A k ++ [x] := by
      have := starts_of_busyLog k s.log
      rw [hst] at this
      rw [← this, List.filter_filter]; simp
    have hf' : (A k).filter (fun x => decide (x.key = k)) = A k := by
      rw [List.filter_append] at hf
      simpa [hx] using hf
    rw [hst, hA, hf']
    have hm := G.procMap _ _ _ hp
    have hh := G.procHead _ _ _ hp
    rw [hx] at hm
    have hq : s.view.kq k = x :: (s.view.wk w).queue.buf := by
      rw [kq_mem G.keysNodup hm]; simp [Queue.contents, hh]
    rw [hq]
    have : sub g k (x :: (s.view.wk w).queue.buf) = [x].filter (fun x => decide (x.caller = g)) ++ sub g k (s.view.wk w).queue.buf := by
      simp only [sub, List.filter_cons, hx, and_true, List.filter_nil]
      split <;> simp
    rw [this, List.filter_append]
    simp only [List.append_assoc]
    exact List.prefix_append_right_inj _ |>.2 (List.prefix_append _ _)
  · have hb : busyLog k s.log = pairs xs ++ [.start x] := b
    have hst : starts (busyLog k s.log) = A k := by rw [hb, starts_append, starts_pairs, ha]; rfl
    have hf : (A k).filter (fun x => decide (x.key = k)) = A k := by
      have := starts_of_busyLog k s.log
      rw [hst] at this
      rw [← this, List.filter_filter]; simp
    rw [hst, hA, hf]
    simp only [List.append_assoc]
    exact List.prefix_append _ _

/-- C17. Nothing is lost: while the scheduler runs, every accepted job has started, is stored in the queue of its key, or is in the hands of the goroutine that schedules it. -/
theorem C17_no_loss {c : Config} {s : State K} (h : Reach c s) (hr : s.closed = false) {x : Job K} (hx : x ∈ scheds s.log) :
    x ∈ starts s.log ∨ (∃ w, s.lookup x.key = some w ∧ x ∈ (s.wk w).queue.contents) ∨
      (s.threads x.caller = .want x ∨ s.threads x.caller = .waiting x ∨ ∃ w, s.threads x.caller = .blockAdd w x) := by
  have G := (good_reach h).1
  obtain ⟨A, HS, HO⟩ := (good_reach h).2
  obtain ⟨d, e1, e2⟩ := HO x.caller x.key
  have hd : d = [] := by
    rcases d with _ | ⟨y, d⟩
    · rfl
    · have := (e2 (by simp)).1; simp [State.view, hr] at this
  have hmem : x ∈ sub x.caller x.key (scheds s.log) := by simp [sub, hx]
  have hmem' : x ∈ sub x.caller x.key (A x.key) ++ sub x.caller x.key (s.view.kq x.key) ++ sub x.caller x.key (s.view.pend x.caller).toList ++ d :=
    e1 ▸ hmem
  rw [hd] at hmem'
  simp only [sub, List.append_nil, List.mem_append, List.mem_filter, decide_eq_true_eq] at hmem'
  rcases hmem' with (⟨ha, _⟩ | ⟨hq, _⟩) | ⟨hp, _⟩
  · left
    have : x ∈ starts (busyLog x.key s.log) := by
      rcases HS x.key with ⟨b, _⟩ | ⟨t, w, y, _, _, b⟩ | ⟨t, w, y, xs, _, _, ha', b⟩
      · have b' : busyLog x.key s.log = _ := b
        rw [b', starts_pairs]; exact ha
      · have b' : busyLog x.key s.log = _ := b
        rw [b', starts_append, starts_pairs]; simp [ha]
      · have b' : busyLog x.key s.log = _ := b
        rw [b', starts_append, starts_pairs]
        rw [ha'] at ha
        simpa [starts] using ha
    rw [← starts_of_busyLog] at this
    exact (List.mem_filter.1 this).1
  · right; left
    unfold View.kq at hq
    cases hl : s.view.lookup x.key with
    | none => rw [hl] at hq; simp at hq
    | some w => rw [hl] at hq; exact ⟨w, hl, hq⟩
  · right; right
    simp only [State.view] at hp
    cases ht : s.threads x.caller <;> simp [ht, Phase.pend] at hp <;> subst hp <;> simp

/-- The full queue: the third job waits, the first is processed, the log is as C16 and C17 say. -/
example : ∃ s : State Nat, run (init exConfig) (exFill ++ exWork ++ [.put 1, .eval 0, .recv 0, .peek 0]) = some s ∧
    starts s.log = [exJob 0, exJob 1] ∧ scheds s.log = [exJob 0, exJob 1, exJob 2] := by
  refine ⟨_, rfl, ?_, ?_⟩ <;> decide

/-! ### C18 -/

/-- C18. The number of keys that own a worker queue never exceeds any bound that holds for the configured limit and all limits set later; keys are distinct. -/
theorem C18_bounded {c : Config} {ls : List (Label K)} {s : State K} (h : run (init c) ls = some s) {B : Nat}
    (hc : c.concurrency ≤ B ∧ c.maxKeys ≤ B) (hl : ∀ t n, Label.setMax t n ∈ ls → n ≤ B) :
    s.map.length ≤ B ∧ (s.map.map Prod.fst).Nodup := by
  refine ⟨(len_run (good_init c) (by simp [init]) ?_ hl h).1, (good_reach ⟨ls, h⟩).1.keysNodup⟩
  simp only [init, Config.concurrentKeys]; split <;> omega

/-- C18. A worker in the pool has an empty queue and no goroutine is about to put a job into it or holds it. -/
theorem C18_pool_empty {c : Config} {s : State K} (h : Reach c s) {w : Nat} (hw : w ∈ s.pool) :
    (s.wk w).queue.head = none ∧ (s.wk w).queue.buf = [] ∧ (∀ t x, s.threads t ≠ .blockAdd w x) ∧ (∀ t, (s.threads t).hold ≠ some w) ∧
      ∀ r, w ∉ s.chans r := by
  have G := (good_reach h).1
  have hf : ∀ k, (k, w) ∉ s.view.map := fun k hk => G.mapPool k w hk hw
  have hc := (G.free w hf).1
  simp only [Queue.contents, List.append_eq_nil_iff, Option.toList_eq_nil_iff] at hc
  refine ⟨hc.1, hc.2, ?_, ?_, ?_⟩
  · intro t x ht
    exact hf _ (G.blkMap t w x (by simp [State.view, ht, Phase.blk]))
  · intro t ht
    obtain ⟨k, hk⟩ := G.tokMap w (.th t) ht
    exact hf k hk
  · intro r hr
    obtain ⟨k, hk⟩ := G.tokMap w (.ch r) hr
    exact hf k hk

/-- With a limit of one key a second key has to wait, and after the release its worker object is reused. -/
example : ∃ s : State Nat, run (init { concurrency := 1, depth := 2, maxKeys := 1 })
    [.call ⟨0, 1, 0⟩, .lock 1 none, .send 1, .call ⟨7, 2, 1⟩, .lock 2 none, .eval 0, .recv 0, .peek 0, .finish 0, .complete 0, .release 0,
     .signal 0, .wake 2] = some s ∧ s.map = [] ∧ s.pool = [0] ∧ s.threads 2 = .want ⟨7, 2, 1⟩ := by
  refine ⟨_, rfl, ?_, ?_, ?_⟩ <;> decide

/-- C18. The limit in force is the one set last, and a key gets a worker queue only while fewer keys than that have one. -/
theorem C18_limit_in_force {c : Config} {ls : List (Label K)} {s s' : State K} {l : Label K} (h : run (init c) ls = some s)
    (hs : step s l = some s') :
    s.maxKeys = limitAfter c ls ∧ (s.map.length < s'.map.length → s'.map.length ≤ limitAfter c ls) := by
  have key : ∀ (ls : List (Label K)) (s0 s : State K), run s0 ls = some s →
      s.maxKeys = ls.foldl newLimit s0.maxKeys := by
    intro ls
    induction ls with
    | nil => intro s0 s h; simp only [run, Option.some.injEq] at h; subst h; rfl
    | cons l ls ih =>
      intro s0 s h
      simp only [run, Option.bind_eq_some_iff] at h
      obtain ⟨s1, e1, e2⟩ := h
      rw [ih _ _ e2, List.foldl_cons, (step_limit e1).1]
  have hm : s.maxKeys = limitAfter c ls := by
    rw [key ls _ _ h]
    unfold limitAfter
    congr 1
    show (if c.concurrency > c.maxKeys then c.concurrency else c.maxKeys) = _
    rw [Nat.max_def]
    split <;> split <;> omega
  refine ⟨hm, fun hlt => ?_⟩
  rcases (step_limit hs).2 with h1 | ⟨h1, h2⟩ <;> omega

/-- The limit is lowered from 2 to 1 while two keys have worker queues; the run goes on, and a third key finds no room until both are gone. -/
example : ∃ s : State Nat, run (init { concurrency := 1, depth := 2, maxKeys := 2 })
    [.call ⟨0, 1, 0⟩, .lock 1 none, .send 1, .call ⟨7, 2, 1⟩, .lock 2 none, .send 2, .setMax 3 1, .call ⟨8, 4, 2⟩, .lock 4 none] = some s ∧
    s.map.length = 2 ∧ limitAfter { concurrency := 1, depth := 2, maxKeys := 2 } ([.setMax 3 1, .call ⟨8, 4, 2⟩] : List (Label Nat)) = 1 ∧
    s.threads 4 = .waiting ⟨8, 4, 2⟩ := by
  refine ⟨_, rfl, ?_, ?_, ?_⟩ <;> decide

/-! ### C19 -/

/-- C19, in part. While the scheduler runs, a caller that waits for a free key is not forgotten: the signal is set, or about to be set, or some key
still has a worker queue (whose release sets the signal), or another caller is about to look again.  Missing: that these steps happen (progress), and
that the woken caller gets the key; a raised limit alone wakes nobody. -/
theorem C19_no_lost_wakeup_partial {c : Config} {ls : List (Label K)} {s : State K} (hc : 1 ≤ c.concurrency)
    (hl : ∀ t n, Label.setMax t n ∈ ls → 1 ≤ n) (h : run (init c) ls = some s) (ho : s.closed = false) {t : Nat} {x : Job K}
    (ht : s.threads t = .waiting x) :
    s.sig = true ∨ s.map ≠ [] ∨ (∃ u, s.threads u = .wSig) ∨ ∃ u y, s.threads u = .want y := by
  have key : ∀ (ls : List (Label K)) (s0 s : State K), 1 ≤ s0.maxKeys → (∀ t n, Label.setMax t n ∈ ls → 1 ≤ n) →
      (s0.closed = true ∨ ((∃ t x, s0.threads t = .waiting x) → Awake s0)) → run s0 ls = some s →
      (s.closed = true ∨ ((∃ t x, s.threads t = .waiting x) → Awake s)) := by
    intro ls
    induction ls with
    | nil => intro s0 s _ _ I h; simp only [run, Option.some.injEq] at h; subst h; exact I
    | cons l ls ih =>
      intro s0 s hm hl I h
      simp only [run, Option.bind_eq_some_iff] at h
      obtain ⟨s1, e1, e2⟩ := h
      refine ih _ _ ?_ (fun t n hm => hl t n (List.mem_cons_of_mem _ hm)) (awake_step e1 hm I) e2
      rw [(step_limit e1).1]
      cases l <;> first | exact hm | exact hl _ _ (List.mem_cons_self ..)
  rcases key ls _ _ (by show 1 ≤ c.concurrentKeys; unfold Config.concurrentKeys; split <;> omega) hl
    (.inr fun ⟨u, y, hu⟩ => by simp only [init] at hu; split at hu <;> simp at hu) h with h1 | h1
  · rw [ho] at h1; cases h1
  · exact h1 ⟨t, x, ht⟩

/-- The caller of key 7 waits while key 0 has the only worker queue. -/
example : ∃ s : State Nat, run (init { concurrency := 1, depth := 2, maxKeys := 1 })
    [.call ⟨0, 1, 0⟩, .lock 1 none, .send 1, .call ⟨7, 2, 1⟩, .lock 2 none] = some s ∧ s.threads 2 = .waiting ⟨7, 2, 1⟩ ∧
    s.closed = false ∧ s.sig = false ∧ s.map = [(0, 0)] := by
  refine ⟨_, rfl, ?_, ?_, ?_, ?_⟩ <;> decide


/-- A stored job of a key nobody calls `Schedule` for any more, in a queue whose head is empty. -/
structure Stuck (v : View K) (x : Job K) (w : Nat) : Prop where
  inmap : (x.key, w) ∈ v.map
  head : (v.wk w).queue.head = none
  mem : x ∈ (v.wk w).queue.buf
  nopend : ∀ t y, v.pend t = some y → y.key ≠ x.key
  fresh : x ∉ starts v.log

theorem stuck_step {v v' : View K} {x : Job K} {w : Nat} (I : Inv v) (C : Coh v) (S : Stuck v x w) (h : VStep v v')
    (hc : ∀ y, v'.pend y.caller = some y → v.pend y.caller = some y ∨ y.key ≠ x.key) : Stuck v' x w := by
  have hnoblk : ∀ t y, v.blk t ≠ some (w, y) := by
    intro t y hb
    have h1 := I.blkMap _ _ _ hb
    exact S.nopend t y (C.blk_pend _ _ _ hb) (I.worker_key h1 S.inmap)
  have other : ∀ u (k : K), (k, u) ∈ v.map → k ≠ x.key → u ≠ w := by
    rintro u k hk hne rfl; exact hne (I.worker_key hk S.inmap)
  cases h with
  | call y h0 h1 h2 =>
    have hy : y.key ≠ x.key := by
      rcases hc y (by simp) with h | h
      · rw [h1] at h; simp at h
      · exact h
    exact { S with
      nopend := by
        intro t z hz
        simp only [upd] at hz; split at hz
        · simp only [Option.some.injEq] at hz; subst hz; exact hy
        · exact S.nopend t z hz
      fresh := by have := S.fresh; simpa [starts] using this }
  | drop t y h0 h1 => exact { S with nopend := fun t z hz => S.nopend t z (upd_none_some hz).2 }
  | addOld t y u q h1 h2 h3 h4 =>
    have hu := other u _ (lookup_some h3) (S.nopend t y h1)
    exact { S with
      head := by simp only [View.setQ, upd_ne _ _ (Ne.symm hu)]; exact S.head
      mem := by simp only [View.setQ, upd_ne _ _ (Ne.symm hu)]; exact S.mem
      nopend := fun t z hz => S.nopend t z (upd_none_some hz).2 }
  | blockOld t y u q h1 h2 h3 h4 =>
    have hu := other u _ (lookup_some h3) (S.nopend t y h1)
    exact { S with
      head := by simp only [View.setQ, upd_ne _ _ (Ne.symm hu)]; exact S.head
      mem := by simp only [View.setQ, upd_ne _ _ (Ne.symm hu)]; exact S.mem }
  | addNew t y u nw' pool' wk' h1 h2 h3 h4 h5 h6 h7 h8 h9 h10 h11 h12 =>
    have hwu : w ≠ u := by
      rintro rfl
      rcases h5 with h5 | h5
      · exact I.mapPool _ _ S.inmap h5.1
      · have := I.mapLt _ _ S.inmap; omega
    exact { S with
      inmap := by simp [S.inmap]
      head := by simp only [h6 w hwu]; exact S.head
      mem := by simp only [h6 w hwu]; exact S.mem
      nopend := fun t z hz => S.nopend t z (upd_none_some hz).2 }
  | put t y u q h1 h2 h4 =>
    have hu : w ≠ u := by rintro rfl; exact hnoblk _ _ h2
    exact { S with
      head := by simp only [View.setQ, upd_ne _ _ hu]; exact S.head
      mem := by simp only [View.setQ, upd_ne _ _ hu]; exact S.mem
      nopend := fun t z hz => S.nopend t z (upd_none_some hz).2 }
  | send t u h1 h2 h3 h4 h5 => exact { S with }
  | recv t r u rest h1 h2 => exact { S with }
  | start t u y h0 h1 h2 h3 h4 =>
    have hu : u ≠ w := by rintro rfl; rw [S.head] at h4; simp at h4
    have hy : y ≠ x := by
      rintro rfl
      obtain ⟨k, hk⟩ := I.tokMap u (.th t) h1
      have := I.itemKey k u y hk (by simp [Queue.contents, h4])
      subst this
      exact hu (nodup_fst_inj I.keysNodup hk S.inmap)
    exact { S with
      fresh := by
        have := S.fresh
        simp only [starts_append, List.mem_append, not_or]
        exact ⟨this, by simpa [starts] using Ne.symm hy⟩ }
  | finish t u y h1 h2 =>
    have hu : w ≠ u := by
      rintro rfl
      have := I.procHead _ _ _ h1
      rw [S.head] at this; simp at this
    exact { S with
      head := by simp only [View.setQ, upd_ne _ _ hu]; exact S.head
      mem := by simp only [View.setQ, upd_ne _ _ hu]; exact S.mem }
  | complete t u y h1 h2 => exact { S with fresh := by have := S.fresh; simpa [starts] using this }
  | release t u h1 h2 h3 h4 =>
    have hu : w ≠ u := by
      rintro rfl
      obtain ⟨P, hP⟩ := I.cnt
      have := (hP w).2.2.1
      have hpos : 0 < (v.wk w).queue.contents.length := List.length_pos_of_mem (a := x) (by simp [Queue.contents, S.mem])
      omega
    obtain ⟨k, hk⟩ := I.tokMap u (.th t) h1
    have hkk : x.key ≠ k := by rintro rfl; exact hu (nodup_fst_inj I.keysNodup S.inmap hk)
    exact { S with
      inmap := by simp [S.inmap, I.mapKey _ _ hk, hkk]
      head := by simp only [upd_ne _ _ hu]; exact S.head
      mem := by simp only [upd_ne _ _ hu]; exact S.mem }
  | setMax n h1 => exact { S with }
  | grow t n h1 h2 h3 => exact { S with }
  | xfer t n i u rest h1 h2 h3 => exact { S with }
  | publish t n i h1 h2 => exact { S with }
  | close => exact { S with }

theorem stuck_run {s s' : State K} {x : Job K} {w : Nat} {ls : List (Label K)} (G : Good s) (S : Stuck s.view x w)
    (hl : ∀ y, Label.call y ∈ ls → y.key ≠ x.key) (h : run s ls = some s') : x ∉ starts s'.log := by
  induction ls generalizing s with
  | nil => simp only [run, Option.some.injEq] at h; subst h; exact S.fresh
  | cons l ls ih =>
    simp only [run, Option.bind_eq_some_iff] at h
    obtain ⟨s1, e1, e2⟩ := h
    refine ih (good_next G e1) ?_ (fun y hy => hl y (List.mem_cons_of_mem _ hy)) e2
    rcases step_view (good_pool G.1) e1 with hv | hv
    · rw [hv]; exact S
    · by_cases hcall : ∃ y, l = .call y
      · obtain ⟨y, rfl⟩ := hcall
        have hy := hl y (by simp)
        refine stuck_step G.1 (coh_view s) S hv ?_
        intro z hz
        simp only [step] at e1
        split at e1
        · split at e1
          · simp at e1
          · simp only [Option.some.injEq] at e1; subst e1
            by_cases hzy : z.caller = y.caller
            · right
              simp only [State.view, State.goto, hzy, upd_self, Phase.pend, Option.some.injEq] at hz
              subst hz; exact hy
            · left
              simp only [State.view, State.goto, upd_ne _ _ hzy] at hz
              exact hz
        · simp at e1
      · -- every other step keeps or removes pending jobs
        have hkeep : ∀ t z, s1.view.pend t = some z → s.view.pend t = some z := by
          intro t z hz
          generalize hv1 : s1.view = v1 at hv hz
          cases hv with
          | call y h0 h1 h2 =>
            exfalso
            have hlog : s1.log = s.log ++ [.sched y] := by
              have : s1.view.log = _ := congrArg View.log hv1
              exact this
            apply hcall
            cases l with
            | call y' => exact ⟨y', rfl⟩
            | _ =>
              exfalso
              have hcnt : (scheds s1.log).length = (scheds s.log).length + 1 := by rw [hlog]; simp [scheds]
              revert hcnt
              simp only [step] at e1
              first
                | (simp only [Option.some.injEq] at e1; subst e1; simp; done)
                | (split at e1
                   all_goals first
                     | (simp at e1; done)
                     | (simp only [Option.some.injEq] at e1; subst e1; simp [State.goto, State.setQ, scheds]; done)
                     | (simp only [Option.map_eq_some_iff] at e1; obtain ⟨q, _, rfl⟩ := e1; simp [State.goto, State.setQ]; done)
                     | (split at e1
                        · simp only [Option.some.injEq] at e1; subst e1; simp [State.goto]
                        · simp at e1)
                     | (unfold State.send at e1; split at e1
                        · simp only [Option.some.injEq] at e1; subst e1; simp [State.goto]
                        · simp at e1)
                     | (unfold State.recv at e1; split at e1
                        · simp only [Option.some.injEq] at e1; subst e1; simp [State.goto]
                        · split at e1
                          · simp only [Option.some.injEq] at e1; subst e1; simp [State.goto]
                          · simp at e1)
                     | (unfold State.lock at e1; split at e1
                        · simp only [Option.some.injEq] at e1; subst e1; simp [State.add, State.goto, State.setQ]
                        · split at e1
                          · simp only [Option.some.injEq] at e1; subst e1; simp [State.goto]
                          · simp only [Option.map_eq_some_iff] at e1
                            obtain ⟨⟨s2, w⟩, hp, rfl⟩ := e1
                            unfold State.poolGet at hp
                            split at hp
                            · split at hp
                              · simp only [Option.some.injEq, Prod.mk.injEq] at hp; obtain ⟨rfl, rfl⟩ := hp
                                simp [State.add, State.goto, State.setQ, State.bind]
                              · simp at hp
                            · simp only [Option.some.injEq, Prod.mk.injEq] at hp; obtain ⟨rfl, rfl⟩ := hp
                              simp [State.add, State.goto, State.setQ, State.bind])
                     | (unfold State.setMax at e1; split at e1
                        · split at e1 <;> simp only [Option.some.injEq] at e1 <;> subst e1 <;> simp [State.goto]
                        · simp at e1)
                     | (simp only [Option.some.injEq] at e1; subst e1; unfold State.peekStep; split
                        · simp [State.goto]
                        · split <;> simp [State.goto, scheds])
                     | (simp only [Option.some.injEq] at e1; subst e1; unfold State.release; split <;> simp [State.goto])
                     | (simp only [Option.some.injEq] at e1; subst e1; unfold State.xferStep; split
                        · split <;> simp [State.goto, State.publish]
                        · simp [State.goto, State.publish]))
          | drop t' y h0 h1 => exact (upd_none_some hz).2
          | addOld t' y u q h1 h2 h3 h4 => exact (upd_none_some hz).2
          | addNew t' y u nw' pool' wk' h1 h2 h3 h4 h5 h6 h7 h8 h9 h10 h11 h12 => exact (upd_none_some hz).2
          | put t' y u q h1 h2 h4 => exact (upd_none_some hz).2
          | _ => exact hz
        exact stuck_step G.1 (coh_view s) S hv (fun y hy => Or.inl (hkeep _ _ hy))

/-- C19 is violated. In a running scheduler an accepted job can reach its queue in such a way that no step of any goroutine ever starts it, unless somebody happens to
schedule another job of the same key: the queue was full, the worker drained it before the blocked `Schedule` call resumed, and `peek` does not look into the channel. -/
theorem C19_violated : ∃ (c : Config) (s : State Nat) (x : Job Nat), 1 ≤ c.concurrency ∧ Reach c s ∧ s.closed = false ∧ x ∈ scheds s.log ∧
    s.threads x.caller = .idle ∧
    ∀ ls s', (∀ y, Label.call y ∈ ls → y.key ≠ x.key) → run s ls = some s' → x ∉ starts s'.log := by
  have hrun : ∃ s : State Nat, run (init exConfig) (exFill ++ exWork ++ exWork ++ [.put 1]) = some s ∧ s.closed = false ∧ exJob 2 ∈ scheds s.log ∧
      s.threads 1 = .idle ∧ s.map = [(0, 0)] ∧ (s.wk 0).queue.head = none ∧ (s.wk 0).queue.buf = [exJob 2] ∧ starts s.log = [exJob 0, exJob 1] ∧
      s.threads 0 = .wTop := by
    refine ⟨_, rfl, by decide, by decide, by decide, by decide, by decide, by decide, by decide, by decide⟩
  obtain ⟨s, h, hc, hx, ht, hmap, hhead, hbuf, hst, h0⟩ := hrun
  have hothers : ∀ t, t ≠ 0 → t ≠ 1 → s.threads t = .idle := by
    intro t h0 h1
    rw [run_other h]
    · simp [init, exConfig, h0]
    · intro l hl
      have : l.thr = some 0 ∨ l.thr = some 1 := by
        revert l; simp [exFill, exWork, Label.thr, exJob]
      rcases this with e | e <;> rw [e] <;> simp <;> omega
  refine ⟨exConfig, s, exJob 2, by decide, ⟨_, h⟩, hc, hx, ht, ?_⟩
  intro ls s' hl hr
  refine stuck_run (w := 0) (good_run (good_init _) h) ?_ hl hr
  constructor
  · simp [State.view, hmap, exJob]
  · exact hhead
  · simp [State.view, hbuf]
  · intro t y hy
    exfalso
    simp only [State.view] at hy
    by_cases e0 : t = 0
    · subst e0; rw [h0] at hy; simp [Phase.pend] at hy
    · by_cases e1 : t = 1
      · subst e1; rw [ht] at hy; simp [Phase.pend] at hy
      · rw [hothers t e0 e1] at hy; simp [Phase.pend] at hy
  · simp only [State.view, hst]; decide

/-! ### C20 -/

/-- Worker `w` of key `k` sits in the first worker channel and no goroutine will read that channel again. -/
structure Forgotten (s : State K) (k : K) (w : Nat) : Prop where
  inmap : (k, w) ∈ s.map
  inchan : w ∈ s.chans 0
  cur : 0 < s.cur
  nowait : ∀ t, s.threads t ≠ .wWait 0

theorem forgotten_step {s s' : State K} {l : Label K} {k : K} {w : Nat} (G : Good s) (F : Forgotten s k w) (h : step s l = some s') :
    Forgotten s' k w ∧ (starts s'.log).filter (fun x => decide (x.key = k)) = (starts s.log).filter (fun x => decide (x.key = k)) := by
  have hnohold : ∀ t, s.view.hold t ≠ some w := by
    intro t ht
    have := G.1.tokUniq w (.th t) (.ch 0) ht F.inchan
    simp at this
  have hch : w ∈ s'.chans 0 ∧ s.cur ≤ s'.cur ∧ ∀ t, s'.threads t ≠ .wWait 0 := by
    have hgo : ∀ (t : Nat) (p : Phase K), p ≠ .wWait 0 → ∀ t', (s.goto t p).threads t' ≠ .wWait 0 := by
      intro t p hp t'
      simp only [State.goto, upd]; split
      · exact hp
      · exact F.nowait t'
    cases l with
    | setDepth n => simp only [step, Option.some.injEq] at h; subst h; exact ⟨F.inchan, Nat.le_refl _, F.nowait⟩
    | close => simp only [step, Option.some.injEq] at h; subst h; exact ⟨F.inchan, Nat.le_refl _, F.nowait⟩
    | eval t =>
      simp only [step] at h
      split at h
      · simp only [Option.some.injEq] at h; subst h
        exact ⟨F.inchan, Nat.le_refl _, hgo _ _ (by simp; have := F.cur; omega)⟩
      · simp at h
    | send t =>
      have hs : ∀ u p, p ≠ .wWait 0 → s.send t u p = some s' → w ∈ s'.chans 0 ∧ s.cur ≤ s'.cur ∧ ∀ t, s'.threads t ≠ .wWait 0 := by
        intro u p hp h
        unfold State.send at h
        split at h
        · simp only [Option.some.injEq] at h; subst h
          refine ⟨?_, Nat.le_refl _, hgo _ _ hp⟩
          simp only [upd_ne _ _ (show (0 : Nat) ≠ s.cur by have := F.cur; omega)]; exact F.inchan
        · simp at h
      simp only [step] at h
      split at h
      · exact hs _ _ (by simp) h
      · exact hs _ _ (by simp) h
      · simp at h
    | recv t =>
      simp only [step] at h
      split at h
      · rename_i r ht
        have hr : r ≠ 0 := by rintro rfl; exact F.nowait t ht
        unfold State.recv at h
        split at h
        · simp only [Option.some.injEq] at h; subst h
          refine ⟨?_, Nat.le_refl _, hgo _ _ (by simp)⟩
          simp only [upd_ne _ _ (Ne.symm hr)]; exact F.inchan
        · split at h
          · simp only [Option.some.injEq] at h; subst h
            exact ⟨F.inchan, Nat.le_refl _, hgo _ _ (by simp)⟩
          · simp at h
      · simp at h
    | setMax t n =>
      simp only [step] at h
      split at h
      · unfold State.setMax at h
        split at h
        · split at h
          · simp only [Option.some.injEq] at h; subst h
            refine ⟨?_, Nat.le_refl _, hgo _ _ (by simp)⟩
            simp only [upd_ne _ _ (show (0 : Nat) ≠ s.cur + 1 by omega)]; exact F.inchan
          · simp only [Option.some.injEq] at h; subst h; exact ⟨F.inchan, Nat.le_refl _, F.nowait⟩
        · simp at h
      · simp at h
    | xfer t =>
      simp only [step] at h
      split at h
      · simp only [Option.some.injEq] at h; subst h
        unfold State.xferStep
        split
        · split
          · refine ⟨?_, Nat.le_refl _, hgo _ _ (by simp)⟩
            simp only [upd_ne _ _ (show (0 : Nat) ≠ s.cur + 1 by omega), upd_ne _ _ (show (0 : Nat) ≠ s.cur by have := F.cur; omega)]; exact F.inchan
          · exact ⟨F.inchan, by simp [State.publish], hgo _ _ (by simp)⟩
        · exact ⟨F.inchan, by simp [State.publish], hgo _ _ (by simp)⟩
      · simp at h
    | wake t =>
      simp only [step] at h
      split at h
      · split at h
        · simp only [Option.some.injEq] at h; subst h
          exact ⟨F.inchan, Nat.le_refl _, hgo _ _ (by split <;> simp)⟩
        · simp at h
      · simp at h
    | lock t pick =>
      simp only [step] at h
      split at h
      · unfold State.lock at h
        split at h
        · simp only [Option.some.injEq] at h; subst h
          exact ⟨F.inchan, Nat.le_refl _, hgo _ _ (by split; simp; split <;> simp)⟩
        · split at h
          · simp only [Option.some.injEq] at h; subst h
            exact ⟨F.inchan, Nat.le_refl _, hgo _ _ (by simp)⟩
          · simp only [Option.map_eq_some_iff] at h
            obtain ⟨⟨s1, w'⟩, hp, rfl⟩ := h
            unfold State.poolGet at hp
            split at hp
            · split at hp
              · simp only [Option.some.injEq, Prod.mk.injEq] at hp; obtain ⟨rfl, rfl⟩ := hp
                exact ⟨F.inchan, Nat.le_refl _, hgo _ _ (by split; simp; split <;> simp)⟩
              · simp at hp
            · simp only [Option.some.injEq, Prod.mk.injEq] at hp; obtain ⟨rfl, rfl⟩ := hp
              exact ⟨F.inchan, Nat.le_refl _, hgo _ _ (by split; simp; split <;> simp)⟩
      · simp at h
    | _ =>
      simp only [step] at h
      split at h
      all_goals first
        | (simp at h; done)
        | (simp only [Option.some.injEq] at h; subst h; exact ⟨F.inchan, Nat.le_refl _, hgo _ _ (by simp)⟩)
        | (simp only [Option.map_eq_some_iff] at h; obtain ⟨q, _, rfl⟩ := h; exact ⟨F.inchan, Nat.le_refl _, hgo _ _ (by simp)⟩)
        | (split at h
           · simp only [Option.some.injEq] at h; subst h; exact ⟨F.inchan, Nat.le_refl _, hgo _ _ (by simp)⟩
           · simp at h)
        | (split at h
           · simp at h
           · simp only [Option.some.injEq] at h; subst h; exact ⟨F.inchan, Nat.le_refl _, hgo _ _ (by simp)⟩)
        | (simp only [Option.some.injEq] at h; subst h; unfold State.peekStep; split
           · exact ⟨F.inchan, Nat.le_refl _, hgo _ _ (by simp)⟩
           · split <;> exact ⟨F.inchan, Nat.le_refl _, hgo _ _ (by simp)⟩)
        | (simp only [Option.some.injEq] at h; subst h; unfold State.release; split <;> exact ⟨F.inchan, Nat.le_refl _, hgo _ _ (by simp)⟩)
  have hmap : (k, w) ∈ s'.view.map ∧ (starts s'.view.log).filter (fun x => decide (x.key = k)) = (starts s.view.log).filter (fun x => decide (x.key = k)) := by
    have I := G.1
    have hin : (k, w) ∈ s.view.map := F.inmap
    rcases step_view (good_pool G.1) h with hv | hv
    · rw [hv]; exact ⟨hin, rfl⟩
    · generalize s'.view = v' at hv
      cases hv with
      | call y h0 h1 h2 => exact ⟨hin, by simp [starts]⟩
      | addNew t x u nw' pool' wk' h1 h2 h3 h4 h5 h6 h7 h8 h9 h10 h11 h12 => exact ⟨by simp [hin], rfl⟩
      | start t u y h0 h1 h2 h3 h4 =>
        refine ⟨hin, ?_⟩
        have hy : y.key ≠ k := by
          rintro rfl
          obtain ⟨k', hk'⟩ := I.tokMap u (.th t) h1
          have := I.itemKey k' u y hk' (by simp [Queue.contents, h4])
          subst this
          have := nodup_fst_inj I.keysNodup hk' hin
          subst this
          exact hnohold t h1
        rw [starts_append, List.filter_append]
        simp [starts, hy]
      | complete t u y h1 h2 => exact ⟨hin, by simp [starts]⟩
      | release t u h1 h2 h3 h4 =>
        refine ⟨?_, rfl⟩
        have hu : u ≠ w := by rintro rfl; exact hnohold t h1
        obtain ⟨k', hk'⟩ := I.tokMap u (.th t) h1
        have hkk : k ≠ k' := by rintro rfl; exact hu (nodup_fst_inj I.keysNodup hk' hin)
        simp [hin, I.mapKey _ _ hk', hkk]
      | _ => exact ⟨hin, rfl⟩
  exact ⟨⟨hmap.1, hch.1, by have := F.cur; omega, hch.2.2⟩, hmap.2⟩

theorem forgotten_run {s s' : State K} {ls : List (Label K)} {k : K} {w : Nat} (G : Good s) (F : Forgotten s k w) (h : run s ls = some s') :
    (starts s'.log).filter (fun x => decide (x.key = k)) = (starts s.log).filter (fun x => decide (x.key = k)) := by
  induction ls generalizing s with
  | nil => simp only [run, Option.some.injEq] at h; subst h; rfl
  | cons l ls ih =>
    simp only [run, Option.bind_eq_some_iff] at h
    obtain ⟨s1, e1, e2⟩ := h
    obtain ⟨a, b⟩ := forgotten_step G F e1
    rw [ih (good_next G e1) a e2, b]

/-- C20 is violated. Lowering the limit and raising it again (3, then 1, then 2) with three queued keys leaves one worker in the closed channel:
no step of any goroutine, not even further `Schedule` calls, ever starts a job of that key again. -/
theorem C20_violated : ∃ (c : Config) (s : State Nat) (k : Nat), 1 ≤ c.concurrency ∧ Reach c s ∧ s.closed = false ∧
    (∃ x ∈ scheds s.log, x.key = k ∧ x ∉ starts s.log) ∧
    ∀ ls s', run s ls = some s' → (starts s'.log).filter (fun x => decide (x.key = k)) = [] := by
  have hrun : ∃ s : State Nat, run (init { concurrency := 1, depth := 2, maxKeys := 3 })
      [.call ⟨0, 1, 0⟩, .lock 1 none, .send 1, .call ⟨1, 1, 1⟩, .lock 1 none, .send 1, .call ⟨2, 1, 2⟩, .lock 1 none, .send 1,
       .setMax 2 1, .setMax 2 2, .xfer 2, .xfer 2, .xfer 2] = some s ∧
      s.closed = false ∧ scheds s.log = [⟨0, 1, 0⟩, ⟨1, 1, 1⟩, ⟨2, 1, 2⟩] ∧ starts s.log = [] ∧ s.map = [(0, 0), (1, 1), (2, 2)] ∧ s.chans 0 = [2] ∧ s.cur = 1 ∧
      s.threads 0 = .wTop ∧ s.threads 1 = .idle ∧ s.threads 2 = .idle := by
    refine ⟨_, rfl, by decide, by decide, by decide, by decide, by decide, by decide, by decide, by decide, by decide⟩
  obtain ⟨s, h, hc, hsch, hst, hmap, hch, hcur, t0, t1, t2⟩ := hrun
  refine ⟨_, s, 2, by decide, ⟨_, h⟩, hc, ⟨⟨2, 1, 2⟩, by simp [hsch], rfl, by simp [hst]⟩, ?_⟩
  intro ls s' hr
  rw [forgotten_run (w := 2) (good_run (good_init _) h) ?_ hr, hst]; rfl
  refine ⟨by simp [hmap], by simp [hch], by omega, ?_⟩
  intro t
  by_cases e0 : t = 0
  · subst e0; rw [t0]; simp
  by_cases e1 : t = 1
  · subst e1; rw [t1]; simp
  by_cases e2 : t = 2
  · subst e2; rw [t2]; simp
  rw [run_other h]
  · simp [init, e0]
  · intro l hl
    have : l.thr = some 1 ∨ l.thr = some 2 := by revert l; simp [Label.thr]
    rcases this with e | e <;> rw [e] <;> simp <;> omega

/-- C20, partial: as long as the limit is never lowered, every key with a queue is known to the processing goroutines: its worker is held by a running goroutine, or queued
in the current worker channel, or (while a change is in progress) already moved to the next one.  The missing part is lowering the limit, where the claim is false (`C20_violated`). -/
theorem C20_kept_partial {c : Config} {ls : List (Label K)} {s : State K} (h : run (init c) ls = some s) (hg : Grows (init c) ls)
    {k : K} {w : Nat} (hk : (k, w) ∈ s.map) :
    (∃ t, (s.threads t).hold = some w) ∨ w ∈ s.chans s.cur ∨ (s.rw = true ∧ w ∈ s.chans (s.cur + 1)) :=
  (kept_run (good_init c) (kept_init c) hg h).somewhere k w hk

/-- C20, partial: under the same condition handing a worker back never blocks on a full channel. -/
theorem C20_no_deadlock_partial {c : Config} {ls : List (Label K)} {s : State K} (h : run (init c) ls = some s) (hg : Grows (init c) ls)
    {t w : Nat} (ht : s.threads t = .enq w ∨ s.threads t = .wEnq w) (hrw : s.rw = false) : (step s (.send t)).isSome := by
  have G := good_run (good_init c) h
  have N := kept_run (good_init c) (kept_init c) hg h
  have hh : s.view.hold t = some w := by rcases ht with e | e <;> simp [State.view, e, Phase.hold]
  have hlen : (w :: s.chans s.cur).length ≤ s.map.length := by
    refine tokens_le (v := s.view) ?_ ?_
    · refine List.nodup_cons.2 ⟨?_, G.1.chanNodup s.cur⟩
      intro hw
      have := G.1.tokUniq w (.ch s.cur) (.th t) hw hh
      simp at this
    · intro u hu
      simp only [List.mem_cons] at hu
      rcases hu with rfl | hu
      · exact G.1.tokMap u (.th t) hh
      · exact G.1.tokMap u (.ch s.cur) hu
  have hcap : s.caps s.cur = s.maxKeys + 1 := N.caps hrw
  have hml : s.map.length ≤ s.maxKeys := N.len
  simp only [List.length_cons] at hlen
  rcases ht with e | e <;> simp only [step, e, State.send] <;> rw [if_pos ⟨hrw, by omega⟩] <;> rfl

/-- Raising the limit from 1 to 2 with one queued key: the worker moves to the new channel. -/
example : ∃ s : State Nat, run (init { concurrency := 1, depth := 2, maxKeys := 1 })
    [.call ⟨0, 1, 0⟩, .lock 1 none, .send 1, .setMax 2 2, .xfer 2, .xfer 2] = some s ∧ s.cur = 1 ∧ s.chans 1 = [0] ∧ s.map = [(0, 0)] := by
  refine ⟨_, rfl, ?_, ?_, ?_⟩ <;> decide

end Verif.Scheduler
