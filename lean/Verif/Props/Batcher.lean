import Verif.Batcher.Progress
/-
Properties C21–C26 of the asynchronous batcher (`streams/async_batcher.go`), for every interleaving of `Add` calls, timers and batch executions.
-/
namespace Verif.Batcher

set_option linter.unusedSectionVars false

variable {K : Type} [DecidableEq K]

/-- A schedule used in the examples: two batches of key 7 and one of key 8, executors of size 2. -/
def demo : List (Label Nat) :=
  [.call 0 ⟨0, 7, [7, 7]⟩, .add 0, .call 1 ⟨1, 8, [8]⟩, .add 1, .add 0, .go 0 0, .call 2 ⟨2, 7, [7]⟩, .add 2]

/-! ### C21 -/

/-- **C21** (size). Every call of the user's executor gets at least one and at most `maxBatchSize` items, none of them a placeholder. -/
theorem C21_batch_size {max n : Nat} (hm : 1 ≤ max) {s : State K} (h : Reach max n s) :
    ∀ c ∈ s.calls, 1 ≤ c.length ∧ c.length ≤ max ∧ ∀ x ∈ c, x.noop = false := by
  intro c hc
  obtain ⟨h1, h2, h3⟩ := (full_reach hm h).calls c hc
  rw [(fixed_reach h).2] at h2
  exact ⟨List.length_pos_iff.2 h1, h2, h3⟩

theorem sum_le {f : Nat → Nat} {n : Nat} (h1 : ∀ i, f i ≤ 1) (h2 : ∀ i, n ≤ i → f i = 0) (m : Nat) : ((List.range m).map f).sum ≤ min m n := by
  induction m with
  | zero => simp
  | succ m ih =>
    rw [List.range_succ, List.map_append, List.sum_append]
    simp only [List.map_cons, List.map_nil, List.sum_cons, List.sum_nil]
    by_cases hm : n ≤ m
    · rw [h2 m hm]; omega
    · have := h1 m; omega

/-- **C21** (concurrency). The goroutines executing batches, over all executors, are at most `maxConcurrentBatches`; so are the running calls. -/
theorem C21_concurrency {max n : Nat} (hm : 1 ≤ max) {s : State K} (h : Reach max n s) (m : Nat) :
    ((List.range m).map fun i => (s.execs i).gos.length).sum ≤ n ∧ ∀ i, (s.execs i).gos ≠ [] → i < n := by
  have F := full_reach hm h
  have hn := (fixed_reach h).1
  have hout : ∀ i, n ≤ i → (s.execs i).gos = [] := by
    intro i hi
    rw [F.good.1.str.out i (by omega)]
  refine ⟨?_, fun i hi => ?_⟩
  · have := sum_le (f := fun i => (s.execs i).gos.length) (n := n) (fun i => ?_) (fun i hi => by rw [hout i hi]; rfl) m
    · omega
    · cases he : (s.execs i).executing with
      | false => rw [(F.good.1.str.eok i).idle he]; simp
      | true => obtain ⟨p, hp, _⟩ := (F.good.1.str.eok i).go he; simp [hp]
  · by_contra hc
    exact hi (hout i (by omega))

/-- The demonstration schedule: one call with the two items of batch 0 and 1 … is running while another item waits. -/
example : ((run (init Nat 2 1) demo).map fun s => (s.calls.map List.length, (s.execs 0).gos, s.pending.length)) = some ([2], [.running], 2) := by decide

/-- With `maxBatchSize = 0` the comparison `==` (async_batcher.go:247) never holds and the limit is not effective: hence the hypothesis `1 ≤ max`. -/
example : ((run (init Nat 0 1) [.call 0 ⟨0, 7, [7, 7]⟩, .add 0, .add 0, .fire 0, .flush 0, .go 0 0]).map fun s => s.calls.map List.length) = some [2] := by decide

/-! ### C22 -/

/-- **C22.** Two executors that are executing at the same time never hold items (or placeholders) with the same key. -/
theorem C22_keys_disjoint {max n : Nat} (hm : 1 ≤ max) {s : State K} (h : Reach max n s) {i j : Nat} (hij : i ≠ j) {x y : Item K}
    (hx : x ∈ (s.execs i).items ++ (s.execs i).noops) (hy : y ∈ (s.execs j).items ++ (s.execs j).noops) : x.key ≠ y.key := by
  have S := (full_reach hm h).good.1.str
  have loc : ∀ i, ∀ x ∈ (s.execs i).items ++ (s.execs i).noops, s.assign x.key = some i := by
    intro i x hx
    rcases List.mem_append.1 hx with h | h
    · exact S.locI i x h
    · exact S.locN i x h
  intro hk
  have h1 := loc i x hx
  have h2 := loc j y hy
  rw [hk, h2] at h1
  simp only [Option.some.injEq] at h1
  exact hij h1.symm

/-- What an executing goroutine works on is what its executor holds, and nobody adds to it: the call in progress has exactly these items. -/
theorem C22_call_in_progress {max n : Nat} (hm : 1 ≤ max) {s : State K} (h : Reach max n s) {i : Nat} (hr : .running ∈ (s.execs i).gos) :
    (s.execs i).executing = true ∧ (s.execs i).gos = [.running] ∧ (s.execs i).items ≠ [] ∧ ∀ x, execFor s x ≠ some i := by
  have F := full_reach hm h
  have S := F.good.1.str
  obtain ⟨j, hj⟩ := List.getElem?_of_mem hr
  obtain ⟨he, hg, _, hok⟩ := the_go S hj
  refine ⟨he, hg, hok, fun x hx => ?_⟩
  have := (execFor_some S hx).1
  rw [he] at this; simp at this

/-- Two executors running at the same time, with keys 7 and 8; another item of key 7 has to wait although executor 2 is free. -/
example : ((run (init Nat 1 3) [.call 0 ⟨0, 7, [7]⟩, .add 0, .call 1 ⟨1, 8, [8]⟩, .add 1, .go 0 0, .go 1 0, .call 2 ⟨2, 7, [7]⟩, .add 2]).map
    fun s => ((s.execs 0).gos, (s.execs 1).gos, (s.execs 2).executing, s.pending.map Item.batch)) = some ([.running], [.running], false, [2]) := by decide

/-! ### C23 -/

/-- The real items of key `k`, in order. -/
def ofKey (k : K) (l : List (Item K)) : List (Item K) := l.filter fun x => decide (x.key = k ∧ x.noop = false)

/-- **C23** (order). For every key, what has been handed to the executor is a prefix of what was added, in the order of adding. -/
theorem C23_order {max n : Nat} (hm : 1 ≤ max) {s : State K} (h : Reach max n s) (k : K) : ofKey k s.calls.flatten <+: ofKey k s.added := by
  have L := (full_reach hm h).good.1.started k
  rw [List.append_assoc] at L
  exact ⟨_, L.symm⟩

/-- **C23** (no duplicates, nothing invented). Each item is handed over at most once, and only if it was added. -/
theorem C23_once {max n : Nat} (hm : 1 ≤ max) {s : State K} (h : Reach max n s) :
    s.calls.flatten.Nodup ∧ ∀ x ∈ s.calls.flatten, x ∈ s.added := by
  have F := full_reach hm h
  have hkind : ∀ x ∈ s.calls.flatten, x.noop = false := by
    intro x hx
    obtain ⟨c, hc, hxc⟩ := List.mem_flatten.1 hx
    exact (F.calls c hc).2.2 x hxc
  constructor
  · rw [List.nodup_iff_count_le_one]
    intro x
    by_cases hx : x ∈ s.calls.flatten
    · refine prefix_count (F.good.1.started x.key) x ⟨rfl, hkind x hx⟩ ?_
      rw [List.count_filter (by simp [cls, hkind x hx])]
      exact List.nodup_iff_count_le_one.1 F.acc.nodup x
    · rw [List.count_eq_zero_of_not_mem hx]; omega
  · intro x hx
    have : x ∈ s.added.filter (cls x.key false) := by
      rw [F.good.1.started x.key]
      exact List.mem_append_left _ (List.mem_append_left _ (List.mem_filter.2 ⟨hx, by simp [cls, hkind x hx]⟩))
    exact (List.mem_filter.1 this).1

/-- **C23** (completed means executed). Items of one key are completed in the order in which they were handed over, and only then. -/
theorem C23_completed_executed {max n : Nat} (hm : 1 ≤ max) {s : State K} (h : Reach max n s) (k : K) :
    ofKey k s.done <+: ofKey k s.calls.flatten := by
  have I := (full_reach hm h).good.1
  have L1 := I.started k
  have L2 := I.finished k
  rw [L1] at L2
  have h3 := List.append_cancel_right L2
  have hp1 : ofKey k s.calls.flatten <+: ofKey k s.calls.flatten ++ here s k false Exec.unstarted := List.prefix_append _ _
  have hp2 : ofKey k s.done <+: ofKey k s.calls.flatten ++ here s k false Exec.unstarted := by
    refine ⟨here s k false Exec.unfinished, ?_⟩
    exact h3.symm
  refine List.prefix_of_prefix_length_le hp2 hp1 ?_
  have hlen := congrArg List.length h3
  rw [List.length_append, List.length_append] at hlen
  have hle : (here s k false Exec.unstarted).length ≤ (here s k false Exec.unfinished).length := by
    unfold here
    split
    · rename_i i hi
      unfold Exec.unstarted
      split
      · rename_i hg; simp [Exec.unfinished, hg]
      · rename_i r hg; simp [Exec.unfinished, hg]
      · simp
    · simp
  unfold ofKey
  change (s.done.filter (cls k false)).length ≤ (s.calls.flatten.filter (cls k false)).length
  omega

example : ((run (init Nat 2 1) demo).map fun s => ((ofKey 7 s.calls.flatten).map fun x => (x.batch, x.idx), (ofKey 7 s.added).map fun x => (x.batch, x.idx))) =
    some ([(0, 0)], [(0, 0), (0, 1), (2, 0)]) := by decide

/-! ### C24 -/

/-- **C24.** For every reachable state and every batch: its callback was invoked at most once; and it was invoked iff all its items have been executed
(its placeholder was reached, if it is empty). -/
theorem C24_callback {max n : Nat} (hm : 1 ≤ max) {s : State K} (h : Reach max n s) {B : Batch K} (hB : s.batches B.id = some B) :
    s.called.count B.id ≤ 1 ∧
    (B.id ∈ s.called ↔ ∀ x ∈ B.itemsToAdd, x ∈ s.done) ∧
    (B.id ∈ s.called → B.keys ≠ [] → ∀ x ∈ B.itemsToAdd, x ∈ s.calls.flatten) := by
  have F := full_reach hm h
  have hiff : B.id ∈ s.called ↔ ∀ x ∈ B.itemsToAdd, x ∈ s.done := by
    rw [F.acc.callback]
    constructor
    · rintro ⟨B', hB', hall⟩
      rw [hB] at hB'; simp only [Option.some.injEq] at hB'; subst hB'; exact hall
    · intro hall; exact ⟨B, hB, hall⟩
  refine ⟨List.nodup_iff_count_le_one.1 F.acc.once _, hiff, fun hc hk x hx => ?_⟩
  have hd := hiff.1 hc x hx
  have hn : x.noop = false := by
    cases hn : x.noop with
    | false => rfl
    | true => exact absurd ((items_noop hx).1 hn) hk
  have hp := C23_completed_executed hm h x.key
  have : x ∈ ofKey x.key s.done := by simp [ofKey, hd, hn]
  exact (List.mem_filter.1 (hp.subset this)).1

/-- A batch of two items spread over two executor calls is called back once. -/
example : ((run (init Nat 1 1) [.call 0 ⟨0, 7, [7, 7]⟩, .add 0, .add 0, .go 0 0, .go 0 0, .go 0 0, .go 0 0, .go 0 0,
      .go 0 0, .go 0 0, .go 0 0]).map fun s => (s.calls.length, s.called)) = some (2, [0]) := by decide

/-- An empty batch is called back once, without a call of the executor. -/
example : ((run (init Nat 1 1) [.call 0 ⟨0, 7, []⟩, .add 0, .go 0 0, .go 0 0]).map fun s => (s.calls.length, s.called)) = some (0, [0]) := by decide

/-! ### C25 -/

/-- **C25** (no item is stranded). An item that was added and is not completed is in an executing executor with a live goroutine, or in an open one
whose timer runs or whose timer function waits for the lock, or it is pending and its own executor, or every executor, is executing with a live goroutine. -/
theorem C25_not_stranded {max n : Nat} (hm : 1 ≤ max) (hn : 1 ≤ n) {s : State K} (h : Reach max n s) {x : Item K} (ha : x ∈ s.added) (hd : x ∉ s.done) :
    (∃ i, i < n ∧ x ∈ (s.execs i).items ++ (s.execs i).noops ∧
      ((s.execs i).gos ≠ [] ∨ (s.execs i).timer = .armed ∨ 1 ≤ (s.execs i).late)) ∨
    (x ∈ s.pending ∧ ∃ i, i < n ∧ (s.execs i).gos ≠ [] ∧ (s.assign x.key = some i ∨ ∀ j, j < n → (s.execs j).gos ≠ [])) := by
  have F := full_reach hm h
  have hN := (fixed_reach h).1
  have S := F.good.1.str
  have live : ∀ i, (s.execs i).executing = true → (s.execs i).gos ≠ [] := by
    intro i he
    obtain ⟨p, hp, _⟩ := (S.eok i).go he
    rw [hp]; simp
  rcases whereabouts F.good ha hd with ⟨i, hi, _, hx⟩ | hx
  · left
    have hx' : x ∈ (s.execs i).items ++ (s.execs i).noops := by
      rcases hx with hx | hx
      · exact List.mem_append_left _ (unfinished_items S hx)
      · exact List.mem_append_right _ (unnooped_noops S hx)
    refine ⟨i, by omega, hx', ?_⟩
    cases he : (s.execs i).executing with
    | true => exact .inl (live i he)
    | false =>
      right
      have hpos := List.length_pos_of_mem hx'
      rw [List.length_append] at hpos
      have ht := (S.eok i).timed he hpos
      cases htm : (s.execs i).timer with
      | nil => exact absurd htm ht
      | armed => exact .inl rfl
      | fired => exact .inr ((S.eok i).fired htm)
  · right
    refine ⟨hx, ?_⟩
    rcases F.good.2 x hx with ⟨i, hi, he⟩ | hall
    · exact ⟨i, by have := S.asg _ _ hi; omega, live i he, .inl hi⟩
    · exact ⟨0, by omega, live 0 (hall 0 (by omega)), .inr fun j hj => live j (hall j (by omega))⟩

/-- **C25** (termination). From every reachable state only finitely many steps of timers and executing goroutines are possible until new items are added:
no execution keeps the batcher busy for ever. -/
theorem C25_terminates {max n : Nat} (hm : 1 ≤ max) {s : State K} (h : Reach max n s) :
    ∃ N, ∀ ls s', (∀ l ∈ ls, l.internal = true) → run s ls = some s' → ls.length ≤ N :=
  ⟨s.work, fun ls s' hl hr => by have := run_work (full_reach hm h).good hl hr; omega⟩

/-- **C25** (completion). When no timer and no goroutine can move any more, every item that was added has been executed and completed,
nothing is pending, and every batch whose items were all added has been called back. -/
theorem C25_quiet {max n : Nat} (hm : 1 ≤ max) (hn : 1 ≤ n) {s : State K} (h : Reach max n s)
    (hq : ∀ l : Label K, l.internal = true → step s l = none) :
    (∀ x ∈ s.added, x ∈ s.done) ∧
    (∀ x ∈ s.added, x.noop = false → x ∈ s.calls.flatten) ∧
    (∀ B : Batch K, s.batches B.id = some B → (∀ x ∈ B.itemsToAdd, x ∈ s.added) → s.called.count B.id = 1) := by
  have F := full_reach hm h
  have hd := quiet_done F.good (by rw [(fixed_reach h).1]; exact hn) hq
  refine ⟨hd, fun x hx hno => ?_, fun B hB hall => ?_⟩
  · have hp := C23_completed_executed hm h x.key
    have : x ∈ ofKey x.key s.done := by simp [ofKey, hd x hx, hno]
    exact (List.mem_filter.1 (hp.subset this)).1
  · have hc : B.id ∈ s.called := F.acc.callback B.id |>.2 ⟨B, hB, fun x hx => hd x (hall x hx)⟩
    exact List.count_eq_one_of_mem F.acc.once hc

/-- A quiet state with work done. -/
example : ((run (init Nat 2 1) [.call 0 ⟨0, 7, [7]⟩, .add 0, .fire 0, .flush 0, .go 0 0, .go 0 0, .go 0 0, .go 0 0, .go 0 0]).map
    fun s => (s.added == s.done, s.called, (s.execs 0).timer, (s.execs 0).late, (s.execs 0).gos)) = some (true, [0], .nil, 0, []) := by decide

/-! ### C26 -/

/-- `a`'s call of `Add` was over before `b`'s began to add: `added` splits with all of `a` in front and nothing of `b`. -/
def AddedBefore (s : State K) (A B : Batch K) : Prop :=
  ∃ u v, s.added = u ++ v ∧ (∀ x ∈ A.itemsToAdd, x ∈ u) ∧ (∀ y ∈ B.itemsToAdd, y ∉ u)

/-- The execution that breaks C26: an empty batch of key 7 followed by a batch with one item of key 7, in one executor. -/
def inversion : List (Label Nat) :=
  [.call 0 ⟨0, 7, []⟩, .add 0, .call 0 ⟨1, 7, [7]⟩, .add 0, .go 0 0, .go 0 0, .go 0 0, .go 0 0, .go 0 0]

/-- **C26 is violated**: batch 0 (empty, key 7) was added before batch 1 (key 7) but is called back after it. -/
theorem C26_violated : ¬ ∀ (max n : Nat) (s : State Nat), 1 ≤ max → 1 ≤ n → Reach max n s → ∀ (A B : Batch Nat) (k : Nat),
    s.batches A.id = some A → s.batches B.id = some B → (∀ x ∈ A.itemsToAdd, x.key = k) → (∀ x ∈ B.itemsToAdd, x.key = k) → AddedBefore s A B →
    ∀ c1 c2, s.called = c1 ++ B.id :: c2 → A.id ∈ c1 := by
  intro H
  have hex : (run (init Nat 2 1) inversion).isSome = true := by decide
  obtain ⟨s, hs⟩ := Option.isSome_iff_exists.1 hex
  have hcalled : s.called = [1, 0] := by
    have : (run (init Nat 2 1) inversion).map State.called = some [1, 0] := by decide
    rw [hs] at this; simpa using this
  have hadded : s.added = [⟨0, 0, 7, true⟩, ⟨1, 0, 7, false⟩] := by
    have : (run (init Nat 2 1) inversion).map State.added = some [⟨0, 0, 7, true⟩, ⟨1, 0, 7, false⟩] := by decide
    rw [hs] at this; simpa using this
  have hb : ∀ i B, (run (init Nat 2 1) inversion).map (fun s => s.batches i) = some B → s.batches i = B := by
    intro i B h; rw [hs] at h; simpa using h
  have := H 2 1 s (by decide) (by decide) ⟨inversion, hs⟩ ⟨0, 7, []⟩ ⟨1, 7, [7]⟩ 7 (hb 0 _ rfl) (hb 1 _ rfl) (by decide) (by decide)
    ⟨[⟨0, 0, 7, true⟩], [⟨1, 0, 7, false⟩], by rw [hadded]; rfl, by decide, by decide⟩ [] [0] (by rw [hcalled]; rfl)
  simp at this

theorem sublist_pair {l u v : List (Item K)} {x y : Item K} (h : l = u ++ v) (hx : x ∈ u) (hy : y ∈ v) : [x, y].Sublist l := by
  rw [h]
  exact (List.singleton_sublist.2 hx).append (List.singleton_sublist.2 hy)

/-- **C26, what holds.** Two batches all of whose items have one key `k` are called back in the order in which they were added, unless the first one is empty
and the second one is not. (Missing for the full property: exactly that mixture, see `C26_violated`.) -/
theorem C26_order_partial {max n : Nat} (hm : 1 ≤ max) {s : State K} (h : Reach max n s) {A B : Batch K} {k : K}
    (hA : s.batches A.id = some A) (hB : s.batches B.id = some B) (kA : ∀ x ∈ A.itemsToAdd, x.key = k) (kB : ∀ x ∈ B.itemsToAdd, x.key = k)
    (hk : A.keys = [] → B.keys = []) (hord : AddedBefore s A B) {c1 c2 : List Nat} (hc : s.called = c1 ++ B.id :: c2) : A.id ∈ c1 := by
  obtain ⟨ls, hrun⟩ := h
  obtain ⟨ls1, ls2, s1, r1, r2, r3, r4⟩ := moment hrun hc (by simp [init])
  have F := full_run (full_init max n hm) hrun
  have F1 := full_run (full_init max n hm) r1
  obtain ⟨u, v, huv, hu, hv⟩ := hord
  have hBc : B.id ∈ s1.called := by rw [r3]; simp
  have hB1 : s1.batches B.id = some B := by
    obtain ⟨B', hB', _⟩ := (F1.acc.callback B.id).1 hBc
    have := batches_run r2 hB'
    rw [hB] at this
    rw [hB', ← this]
  have hBdone : ∀ y ∈ B.itemsToAdd, y ∈ s1.added := by
    obtain ⟨B', hB', hall⟩ := (F1.acc.callback B.id).1 hBc
    rw [hB1] at hB'; simp only [Option.some.injEq] at hB'; subst hB'
    exact fun y hy => done_added F1.good.1 (hall y hy)
  -- the front part was complete when `B` was called back
  have hpre : u <+: s1.added := by
    obtain ⟨y, hy⟩ := List.exists_mem_of_ne_nil _ (items_ne B)
    have hu' : u <+: s.added := ⟨v, huv.symm⟩
    rcases List.prefix_or_prefix_of_prefix hu' r4 with h | h
    · exact h
    · exact absurd (h.subset (hBdone y hy)) (hv y hy)
  obtain ⟨w, hw⟩ := hpre
  have hord1 : ∀ x ∈ A.itemsToAdd, ∀ y ∈ B.itemsToAdd, [x, y].Sublist s1.added := by
    intro x hx y hy
    refine sublist_pair hw.symm (hu x hx) ?_
    have := hBdone y hy
    rw [← hw, List.mem_append] at this
    rcases this with h | h
    · exact absurd h (hv y hy)
    · exact h
  have hA1 : s1.batches A.id = some A := by
    obtain ⟨x, hx⟩ := List.exists_mem_of_ne_nil _ (items_ne A)
    have hxa : x ∈ s1.added := by rw [← hw]; exact List.mem_append_left _ (hu x hx)
    obtain ⟨A', hA', _⟩ := F1.acc.owner x hxa
    rw [items_batch hx] at hA'
    have := batches_run r2 hA'
    rw [hA] at this
    rw [hA', ← this]
  have hne : A.id ≠ B.id := by
    intro hid
    rw [hid, hB] at hA
    simp only [Option.some.injEq] at hA
    subst hA
    obtain ⟨x, hx⟩ := List.exists_mem_of_ne_nil _ (items_ne B)
    exact hv x hx (hu x hx)
  have := called_earlier F1 hA1 hB1 kA kB hk hord1 hBc
  rw [r3, List.mem_append, List.mem_singleton] at this
  rcases this with h | h
  · exact h
  · exact absurd h hne

/-- Two batches of key 7, the second one empty: called back in order. -/
example : ((run (init Nat 2 1) [.call 0 ⟨0, 7, [7]⟩, .add 0, .call 0 ⟨1, 7, []⟩, .add 0, .go 0 0, .go 0 0, .go 0 0, .go 0 0, .go 0 0]).map
    fun s => (s.added.map Item.batch, s.called)) = some ([0, 1], [0, 1]) := by decide

end Verif.Batcher
