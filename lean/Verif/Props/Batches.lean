import Verif.Batches.Finish
/-
C114: what an application computes for a key when its records go through an `AsyncBatcher`.
-/
namespace Verif.Props.Batches
open Verif.Batches
open Verif.Keyed (ofKey)

variable {K σ X : Type} [DecidableEq K]

/-- **C114** (what is missing: records of a key with items after one without, see `C114_violated_empty`). In every execution, with any number of workers, executors and crashes: what readers see for a key is exactly what one process
produces that handles the records of the key below the watermark one after the other. -/
theorem C114_visible_partial (c : Cfg K σ X) (hm : 1 ≤ c.maxSize) (hx : NoMix c) (w : W K σ) (h : Reach c w) (p : Nat) (k : K) : ofKey k (w.vis p) = outsAt c p k (w.wm p) := by
  obtain ⟨H, I⟩ := inv_reach hm hx h
  exact I.vis p k

/-- **C114** (what is missing: as before). The store has for every key the state after the first records of the key, at least those below the watermark: a callback never sees effects of later records of its key, nor misses those of
earlier ones. -/
theorem C114_store_partial (c : Cfg K σ X) (hm : 1 ≤ c.maxSize) (hx : NoMix c) (w : W K σ) (h : Reach c w) (p : Nat) (k : K) : ∃ o, w.wm p ≤ o ∧ w.st p k = stateAt c p k o := by
  obtain ⟨o, h1, -, h2⟩ := store_at hm hx h p k
  exact ⟨o, h1, h2⟩

/-- **C114** (what is missing: as before). Once all events of the key are completed, the store has for it the state after all of them. -/
theorem C114_store_completed_partial (c : Cfg K σ X) (hm : 1 ≤ c.maxSize) (hx : NoMix c) (w : W K σ) (h : Reach c w) (p : Nat) (k : K)
    (hd : ∀ y ∈ w.ev p, y.key = k → y ∈ (w.prod p).map Prod.fst) : w.st p k = stateAt c p k (w.base p + (w.ev p).length) := store_done hm hx h p k hd

/-- **C114** (without the restriction). For every key of a partition, the executor gets the items of the records in offset order, those of a record in the order in which the handler made them, without gap or repetition, from the first
record of the process on. -/
theorem C114_items_in_order (c : Cfg K σ X) (hm : 1 ≤ c.maxSize) (w : W K σ) (h : Reach c w) (p : Nat) (k : K) :
    executed w p k <+: itemsOf c p k (w.base p) (w.base p + (w.ev p).length) := by
  obtain ⟨H, B⟩ := base_reach hm h
  exact B.executed_prefix hm p k

/-- **C114** (without the restriction). What a process has committed it has executed: every item of every record that was committed by this process was handed to the executor. -/
theorem C114_executed (c : Cfg K σ X) (hm : 1 ≤ c.maxSize) (w : W K σ) (h : Reach c w) (p o : Nat) (h1 : w.base p ≤ o) (h2 : o < w.wm p) (k : K) (x : X) (hx : (c.src p)[o]? = some (k, x))
    (i : Nat) (hi : i < c.parts k x) : (o, i) ∈ executed w p k := by
  obtain ⟨H, B⟩ := base_reach hm h
  exact B.committed_executed hm h1 h2 hx hi

/-- **C114** (what is missing: as before). From every state the result of a partition can still be completed: then readers see for every key what one process makes of all its records. -/
theorem C114_can_be_completed_partial (c : Cfg K σ X) (hm : 1 ≤ c.maxSize) (hn : 1 ≤ c.conc) (ha : 1 ≤ c.asyncSize) (hx : NoMix c) (w : W K σ) (h : Reach c w) (p : Nat) :
    ∃ w', From c w w' ∧ w'.wm p = (c.src p).length ∧ ∀ k, ofKey k (w'.vis p) = (Exact.handleAll c.app (valsOf k (c.src p))).2 := by
  obtain ⟨w', h1, h2⟩ := can_finish hm hn ha (wm_le hm h p)
  refine ⟨w', h1, h2, fun k => ?_⟩
  rw [C114_visible_partial c hm hx w' (h.trans h1), h2]
  unfold outsAt
  rw [List.take_length]

/-- An application that counts: it produces the number of records of the key so far, times ten, plus the record. -/
def count : Exact.App Nat Nat := ⟨0, fun s x => [10 * (s + 1) + x], fun s _ => s + 1⟩

/-- Two records of one key and one of another; the second one of the key and that of the other one are without items. -/
def exC : Cfg Nat Nat Nat := ⟨2, 2, 100, count, fun p => if p = 1 then [(7, 1), (7, 2), (8, 3)] else [], fun _ x => if x = 1 then 2 else 0⟩

theorem reach_run {c : Cfg Nat Nat Nat} : ∀ (xs : List (Act Nat)) {w0 w w' : W Nat Nat}, From c w0 w → run c w xs = some w' → From c w0 w' := by
  intro xs
  induction xs with
  | nil => intro w0 w w' h hr; cases hr; exact h
  | cons x xs ih =>
    intro w0 w w' h hr
    simp only [run, Option.bind_eq_some_iff] at hr
    obtain ⟨w1, h1, h2⟩ := hr
    exact ih (.step x h h1) h2

theorem exC_noMix : NoMix exC := by
  intro p i j k x x' hij h1 h2 h0
  by_cases hp : p = 1
  · subst hp
    have hs : exC.src 1 = [(7, 1), (7, 2), (8, 3)] := rfl
    rw [hs] at h1 h2
    have hj : j < 3 := by
      have := (List.getElem?_eq_some_iff.mp h2).1
      simpa using this
    have : ∀ j, j < 3 → 0 < j → ∀ x', ([(7, 1), (7, 2), (8, 3)] : List (Nat × Nat))[j]? = some (k, x') → exC.parts k x' = 0 := by
      intro j hj hj0 x' h
      match j, hj, hj0 with
      | 1, _, _ => simp at h; rw [← h.2]; rfl
      | 2, _, _ => simp at h; rw [← h.2]; rfl
    exact this j hj (by omega) x' h2
  · have hs : exC.src p = [] := by simp [exC, hp]
    rw [hs] at h1; simp at h1

/-- The first record is executed with both items, the second one waits in the same executor, the third one in another. The process dies, and all is done again: then the first two are committed. -/
def exRun : List (Act Nat) :=
  [.arrive 1, .arrive 1, .arrive 1, .handle 1, .inner (.add 1), .inner (.add 1), .inner (.go 0 0), .handle 1, .inner (.add 1), .handle 1, .inner (.add 1), .inner (.go 0 0), .crash,
   .arrive 1, .arrive 1, .handle 1, .inner (.add 1), .inner (.add 1), .handle 1, .inner (.add 1)] ++ List.replicate 6 (.inner (.go 0 0)) ++ [.inner (.fire 0), .inner (.flush 0), .inner (.go 0 0), .inner (.go 0 0), .job 1, .job 1, .commit 1 2]

/-- The hypotheses of the theorems. -/
example : ∃ w, Reach exC w ∧ NoMix exC ∧ 1 ≤ exC.maxSize ∧ 1 ≤ exC.conc ∧ 1 ≤ exC.asyncSize ∧ w.vis 1 = [(7, 11), (7, 22)] ∧ w.wm 1 = 2 ∧ w.st 1 7 = 2 ∧ outsAt exC 1 7 2 = [11, 22] ∧
    executed w 1 7 = [(0, 0), (0, 1)] ∧ itemsOf exC 1 7 0 2 = [(0, 0), (0, 1)] ∧ (∀ y ∈ w.ev 1, y.key = 7 → y ∈ (w.prod 1).map Prod.fst) := by
  have h : ∃ w, run exC (init exC) exRun = some w ∧ w.vis 1 = [(7, 11), (7, 22)] ∧ w.wm 1 = 2 ∧ w.st 1 7 = 2 ∧ executed w 1 7 = [(0, 0), (0, 1)] ∧ (∀ y ∈ w.ev 1, y.key = 7 → y ∈ (w.prod 1).map Prod.fst) :=
    ⟨_, rfl, by decide +kernel, by decide +kernel, by decide +kernel, by decide +kernel, by decide +kernel⟩
  obtain ⟨w, h1, h2, h3, h4, h5, h6⟩ := h
  exact ⟨w, reach_run exRun .init h1, exC_noMix, by decide, by decide, by decide, h2, h3, h4, by decide +kernel, h5, by decide +kernel, h6⟩

/-- The same with items for the second record only, as when a cache says that the first one needs no call. -/
def mixC : Cfg Nat Nat Nat := { exC with parts := fun _ x => if x = 2 then 1 else 0 }

/-- **C114, violated** (`streams/async_batcher.go:277-284`, `docs/asyncprocessing.md:353-358`). An empty batch and one with an item, of one key, in one executor: the callback of the second record comes first, although the events went
through the batcher "as one to maintain order", no process crashed and all was committed. -/
theorem C114_violated_empty : ∃ w, Reach mixC w ∧ 1 ≤ mixC.maxSize ∧ w.wm 1 = 2 ∧ ofKey 7 (w.vis 1) = [12, 21] ∧ outsAt mixC 1 7 2 = [11, 22] := by
  have h : ∃ w, run mixC (init mixC) ([.arrive 1, .arrive 1, .handle 1, .inner (.add 1), .handle 1, .inner (.add 1), .inner (.go 0 0), .inner (.go 0 0), .inner (.go 0 0), .inner (.go 0 0),
      .inner (.go 0 0), .job 1, .job 1, .commit 1 2]) = some w ∧ w.wm 1 = 2 ∧ ofKey 7 (w.vis 1) = [12, 21] := ⟨_, rfl, by decide +kernel, by decide +kernel⟩
  obtain ⟨w, h1, h2, h3⟩ := h
  exact ⟨w, reach_run _ .init h1, by decide, h2, h3, by decide +kernel⟩

end Verif.Props.Batches
