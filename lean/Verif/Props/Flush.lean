import Verif.Flush.Bound
/-
C100: how long the items given to an `AsyncBatcher` take (`streams/async_batcher.go:118-311`).
-/
namespace Verif.Props.Flush

open Verif.Batcher Verif.Flush

set_option linter.unusedSectionVars false

variable {K : Type} [DecidableEq K]

theorem open_size {s : S K} {i : Nat} (h : Open s i) : 0 < size (s.b.execs i) := by
  have := List.length_pos_of_ne_nil h.2
  rw [List.length_append] at this
  exact this

/-- **C100** (a batch is executed in time). If nobody is late by more than `L`, a batch which is waiting for more items is executed at most `delay + 2 L` after its first item
arrived. -/
theorem C100_batch_in_time {delay L E max n : Nat} (hm : 1 ≤ max) (hn : 1 ≤ n) {s : S K} (h : Prompt delay L E max n s) {i : Nat} (ho : Open s i) :
    s.now ≤ s.since i + delay + 2 * L :=
  open_bound (tm_prompt hm hn h) ho.1 (open_size ho)

/-- **C100** (a pending item finds a batch in time). An item that has to wait because its key is being executed, or because all executors are, and that has `p` items before it, is in a batch
after at most `p + 1` times as long as an execution takes. -/
theorem C100_pending_in_time {delay L E max n : Nat} (hm : 1 ≤ max) (hn : 1 ≤ n) {s s' : S K} (h : Prompt delay L E max n s) (hg : Goes delay L E s s')
    {x : Item K} {A B : List (Item K)} (hp : s.b.pending = A ++ x :: B) (hx : x ∈ s'.b.pending) : s'.now ≤ s.now + E * (A.length + 1) :=
  (pending_goes (tm_prompt hm hn h) hg hp).2 hx

/-- **C100** (an item is completed in time). An item that is added while `p` items are pending is completed, if nobody is late, at most `delay + 2 L` and `p + 2` executions later. -/
theorem C100_item_in_time {delay L E max n : Nat} (hm : 1 ≤ max) (hn : 1 ≤ n) {s s1 s2 : S K} (h : Prompt delay L E max n s) {t : Nat} {x : Item K}
    {r : List (Item K)} (ha : s.b.adders t = x :: r) (h1 : step delay s (.does (.add t)) = some s1) (hg : Goes delay L E s1 s2)
    (hx : s2.now > s.now + delay + 2 * L + E * (s.b.pending.length + 2)) : x ∈ s2.b.done := by
  have T := tm_prompt hm hn h
  obtain ⟨w, _, _⟩ := within_add T ha h1
  have T1 : Tm delay L E s1 := tm_next T ⟨_, by simp, h1⟩
  by_contra hd
  have := within_now (tm_goes T1 hg) (within_goes T1 hg w) hd
  have h3 : E * (s.b.pending.length + 2) = E * (s.b.pending.length + 1) + E := Nat.mul_succ _ _
  omega

/-- **C100, what holds of "until `delay` has elapsed".** When a timer function makes executor `i` execute its batch, `delay` has elapsed since the first item of the batch arrived; or else
the function is one that a timer of an *earlier* batch started before this batch began (it was waiting for the lock when the earlier batch became full),
and then this batch began at most `L` ago. Missing: that this second case does not happen (`C100_violated_early`). -/
theorem C100_not_early_partial {delay L E max n : Nat} (hm : 1 ≤ max) (hn : 1 ≤ n) {s s' : S K} (h : Prompt delay L E max n s) {i j : Nat} (ho : Open s i)
    (hs : step delay s (.flush i j) = some s') :
    ((s.b.execs i).timer = .fired ∧ s.since i + delay ≤ s.now) ∨
    ((s.b.execs i).timer = .armed ∧ (∃ f, (s.fired i)[j]? = some f ∧ f ≤ s.since i) ∧ s.now ≤ s.since i + L) := by
  have T := tm_prompt hm hn h
  have P := T.loc i
  obtain ⟨o1, o2, o3⟩ := P.opn ho.1 (open_size ho)
  cases ht : (s.b.execs i).timer with
  | nil => exact absurd ht ((T.full.good.1.str.eok i).timed ho.1 (open_size ho))
  | fired =>
    obtain ⟨f, hf, h1, _⟩ := o2 ht
    have := (P.fires f hf).1
    exact .inl ⟨rfl, by omega⟩
  | armed =>
    simp only [Flush.step] at hs
    split at hs
    · rename_i hj
      have hmem := List.getElem_mem hj
      have h1 := o3 ht _ hmem
      have h2 := (P.fires _ hmem).2
      exact .inr ⟨rfl, ⟨_, List.getElem?_eq_getElem hj, h1⟩, by omega⟩
    · simp at hs

/-- **C100** (a batch that no function of an earlier timer can touch is left alone until `delay` has elapsed). -/
theorem C100_not_early_clean {delay L E max n : Nat} (hm : 1 ≤ max) (hn : 1 ≤ n) {s s' : S K} (h : Prompt delay L E max n s) {i j : Nat} (ho : Open s i)
    (hs : step delay s (.flush i j) = some s') (hc : ∀ f ∈ s.fired i, s.since i < f) : s.since i + delay ≤ s.now := by
  rcases C100_not_early_partial hm hn h ho hs with ⟨_, h⟩ | ⟨_, ⟨f, hf, h1⟩, _⟩
  · exact h
  · have := hc f (List.mem_of_getElem? hf)
    omega

/-- **C100** (the clock adds nothing). What the batcher does is an execution of the batcher without a clock, so that all that is proved of it holds. -/
theorem C100_same_batcher {delay : Nat} {s s' : S K} {ls : List (Flush.Label K)} (h : run delay s ls = some s') : Batcher.run s.b (acts ls) = some s'.b := by
  induction ls generalizing s with
  | nil => simp only [Flush.run, Option.some.injEq] at h; subst h; rfl
  | cons l ls ih =>
    simp only [Flush.run, Option.bind_eq_some_iff] at h
    obtain ⟨s1, e1, e2⟩ := h
    have := ih e2
    rcases step_cases e1 with ⟨d, rfl, rfl⟩ | ⟨m, b, F, hb, rfl, _, rfl | ⟨i, j, rfl, rfl⟩⟩
    · exact this
    · change Batcher.run s.b (m :: acts ls) = _
      simp only [Batcher.run, hb]; exact this
    · change Batcher.run s.b (.flush i :: acts ls) = _
      simp only [Batcher.run, hb]; exact this

/-- **C100** (the delay): 5 ms if none is given, and otherwise what was given without its sign. -/
theorem C100_delay (d : BitVec 64) (h : d ≠ BitVec.intMin 64) :
    delayOf d = if d.toInt = 0 then 5000000 else d.toInt.natAbs := by
  unfold delayOf Sak.abs
  have h0 : d = 0 ↔ d.toInt = 0 := by
    constructor
    · rintro rfl; rfl
    · intro h; exact BitVec.eq_of_toInt_eq (by simpa using h)
  by_cases hd : d = 0
  · rw [if_pos hd, if_pos (h0.1 hd)]
  · rw [if_neg hd, if_neg (fun h => hd (h0.2 h))]
    have hs : d.slt 0 = decide (d.toInt < 0) := by simp [BitVec.slt]
    rw [hs]
    by_cases hneg : d.toInt < 0
    · simp only [hneg, decide_true, if_true]
      rw [BitVec.toInt_neg_of_ne_intMin h]
      omega
    · simp only [hneg, decide_false]
      rw [if_neg (by simp)]
      omega

/-! ### Concrete executions -/

/-- `InTime`, computed. -/
def inTime (L E : Nat) (s : S K) (d : Nat) : Bool :=
  (List.range s.b.n).all fun i =>
    (!decide ((s.b.execs i).timer = .armed) || decide (s.now + d ≤ s.due i + L)) && (s.fired i).all (fun f => decide (s.now + d ≤ f + L)) &&
      (!(s.b.execs i).executing || decide (s.now + d ≤ s.start i + E))

/-- The state after some steps, if nobody is late. -/
def runIn (delay L E : Nat) (s : S K) : List (Flush.Label K) → Option (S K)
  | [] => some s
  | .pass d :: ls => if inTime L E s d then (Flush.step delay s (.pass d)).bind fun s' => runIn delay L E s' ls else none
  | l :: ls => (Flush.step delay s l).bind fun s' => runIn delay L E s' ls

theorem inTime_spec {delay L E : Nat} {s : S K} {d : Nat} (T : Tm delay L E s) (h : inTime L E s d = true) : InTime L E s d := by
  intro i
  by_cases hi : i < s.b.n
  · have := List.all_eq_true.1 h i (by simpa using hi)
    simp only [Bool.and_eq_true, Bool.or_eq_true, Bool.not_eq_true', decide_eq_false_iff_not, decide_eq_true_eq, List.all_eq_true] at this
    obtain ⟨⟨h1, h2⟩, h3⟩ := this
    exact ⟨fun ht => h1.resolve_left (fun h => h ht), h2, fun he => h3.resolve_left (by simp [he])⟩
  · have ho := T.full.good.1.str.out i (by omega)
    have hl := (T.loc i).late
    rw [ho] at hl
    have hf : s.fired i = [] := List.eq_nil_of_length_eq_zero hl.symm
    rw [ho, hf]
    exact ⟨by simp, by simp, by simp⟩

theorem runIn_goes {delay L E : Nat} {s0 s s' : S K} {ls : List (Flush.Label K)} (T : Tm delay L E s0) (hg : Goes delay L E s0 s)
    (h : runIn delay L E s ls = some s') : Goes delay L E s0 s' := by
  induction ls generalizing s with
  | nil => simp only [runIn, Option.some.injEq] at h; subst h; exact hg
  | cons l ls ih =>
    have key : ∀ s1, Flush.step delay s l = some s1 → (∀ d, l = .pass d → InTime L E s d) → runIn delay L E s1 ls = some s' → Goes delay L E s0 s' :=
      fun s1 h1 h2 h3 => ih (hg.step ⟨l, h2, h1⟩) h3
    cases l with
    | pass d =>
      simp only [runIn] at h
      split at h
      · rename_i hi
        simp only [Option.bind_eq_some_iff] at h
        obtain ⟨s1, e1, e2⟩ := h
        refine key s1 e1 (fun d' hd' => ?_) e2
        simp only [Flush.Label.pass.injEq] at hd'
        subst hd'
        exact inTime_spec (tm_goes T hg) hi
      · simp at h
    | does m =>
      simp only [runIn, Option.bind_eq_some_iff] at h
      obtain ⟨s1, e1, e2⟩ := h
      exact key s1 e1 (by simp) e2
    | flush i j =>
      simp only [runIn, Option.bind_eq_some_iff] at h
      obtain ⟨s1, e1, e2⟩ := h
      exact key s1 e1 (by simp) e2

theorem prompt_of {delay L E max n : Nat} (hm : 1 ≤ max) (hn : 1 ≤ n) {s : S K} {ls : List (Flush.Label K)}
    (h : runIn delay L E (S.init K max n) ls = some s) : Prompt delay L E max n s :=
  runIn_goes (tm_init hm hn) .refl h

/-- A batch with one item of key `k`. -/
def one (k : Nat) : Batch Nat := { id := k, key := k, keys := [k] }

/-- The first batch gets an item; after 5 ms, when its timer has fired and the function waits for the lock, it gets the second one and is full; it is executed at once, and
the next batch gets its first item before the function gets the lock. -/
def early : List (Flush.Label Nat) :=
  [.does (.call 0 (one 0)), .does (.add 0), .pass 5000000, .does (.fire 0), .does (.call 0 (one 1)), .does (.add 0),
   .does (.go 0 0), .does (.go 0 0), .does (.go 0 0), .does (.go 0 0), .does (.go 0 0), .does (.go 0 0),
   .does (.call 0 (one 2)), .does (.add 0)]

/-- **C100 fails**: even if nobody is ever late, a batch may be executed the moment it gets its first item, although there is room for more: the function of a timer which was stopped too late
does not know that its batch has been executed already (`streams/async_batcher.go:250-255,259-269`). -/
theorem C100_violated_early : ¬ ∀ (delay L E max n : Nat) (s s' : S Nat) (i j : Nat), 1 ≤ max → 1 ≤ n → Prompt delay L E max n s → Open s i →
    Flush.step delay s (.flush i j) = some s' → (s'.b.execs i).executing = true → s.since i + delay ≤ s.now := by
  intro H
  have h1 : ((runIn (delayOf 0) 0 0 (S.init Nat 2 1) early).any fun s =>
      decide ((s.b.execs 0).executing = false ∧ (s.b.execs 0).items ++ (s.b.execs 0).noops ≠ []) &&
      ((Flush.step (delayOf 0) s (.flush 0 0)).any fun s' => (s'.b.execs 0).executing) && decide (s.now < s.since 0 + delayOf 0)) = true := by decide +kernel
  obtain ⟨hs, h⟩ := (Option.any_eq_true_iff_get _ _).1 h1
  simp only [Bool.and_eq_true, decide_eq_true_eq] at h
  obtain ⟨⟨h2, h3⟩, h4⟩ := h
  obtain ⟨hs', h3'⟩ := (Option.any_eq_true_iff_get _ _).1 h3
  have := H (delayOf 0) 0 0 2 1 _ _ 0 0 (by decide) (by decide) (prompt_of (by decide) (by decide) (Option.some_get hs).symm) h2 (Option.some_get hs').symm h3'
  omega

/-- A state to which `C100_batch_in_time` applies with equality: the timer and its function are as late as they may be. -/
example : ((runIn 10 2 5 (S.init Nat 2 1) [.does (.call 0 (one 0)), .does (.add 0), .pass 12, .does (.fire 0), .pass 2]).any fun s =>
    decide ((s.b.execs 0).executing = false ∧ (s.b.execs 0).items ++ (s.b.execs 0).noops ≠ [] ∧ s.now = s.since 0 + 10 + 2 * 2)) = true := by
  decide +kernel

/-- A state to which `C100_pending_in_time` applies with equality: the only executor is executing, an item is pending, and stays so until the execution ends. -/
example : ((runIn 10 2 5 (S.init Nat 1 1) [.does (.call 0 (one 0)), .does (.add 0), .does (.call 0 (one 1)), .does (.add 0), .pass 5]).any fun s =>
    decide (s.b.pending.length = 1 ∧ s.front = 0 ∧ s.now = 5 * (0 + 1))) = true := by
  decide +kernel

/-- An execution to which `C100_item_in_time` applies, and in which the item takes as long as it may: it waits for an execution, for the timer, for the lock, and for its own execution. -/
example : ((runIn 10 2 5 (S.init Nat 2 1)
      [.does (.call 0 (one 0)), .does (.call 1 (one 1)), .does (.call 2 (one 2)), .does (.add 0), .does (.add 1), .does (.add 2),
       .pass 5, .does (.go 0 0), .does (.go 0 0), .does (.go 0 0), .does (.go 0 0), .does (.go 0 0), .does (.go 0 0),
       .pass 12, .does (.fire 0), .pass 2, .flush 0 0, .pass 5, .does (.go 0 0), .does (.go 0 0)]).any fun s =>
    decide (s.now = 0 + 10 + 2 * 2 + 5 * (0 + 2) ∧ s.b.done.length = 2)) = true := by
  decide +kernel

/-- The second case of `C100_not_early_partial` and the hypothesis of `C100_not_early_clean`: both kinds of functions occur. -/
example : ((runIn 10 2 5 (S.init Nat 2 1) [.does (.call 0 (one 0)), .does (.add 0), .pass 12, .does (.fire 0)]).any fun s =>
    decide ((s.b.execs 0).timer = .fired) && (s.fired 0).all (fun f => decide (s.since 0 < f)) && ((Flush.step 10 s (.flush 0 0)).any fun s' => (s'.b.execs 0).executing)) = true := by
  decide +kernel

example : delayOf 0 = 5000000 ∧ delayOf 7 = 7 ∧ delayOf (-7) = 7 ∧ delayOf (BitVec.intMin 64) = 0 := by decide +kernel

end Verif.Props.Flush
