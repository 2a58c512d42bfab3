import Verif.Effects.Order
import Verif.Props.Effects
/-
Property C80: the change log has the changes of a partition in the order in which the store saw them, so that a restored store is the store as it
was. Violated by the code in general; proved for applications that handle the events of a partition one after the other in the order of arrival.
-/
namespace Verif.Effects
open Verif.Eos Verif.Exact

variable {c : Cfg} {src : Nat → List Nat}

/-! ### What always holds -/

open Classical in
/-- **C80** (what is in the log). Readers see the committed changes of a partition, each once and nothing else, in some order. -/
theorem C80_same_changes (hn : 0 < c.poolSize) {w : World} (h : Reach c src w) {i : Inc} (hi : i ∈ w.incs) (tp : Nat) :
    (i.seen tp).Perm ((i.changes tp).filter fun x => i.Committed x.1) := by
  obtain ⟨j, hj⟩ := List.getElem?_of_mem hi
  obtain ⟨rest, J⟩ := (inv_reach hn h).all hj
  rw [seen_groups hn J, committed_filter hn J]
  exact groups_perm _ _ _

open Classical in
/-- **C80** (when it is in order). The log has the committed changes in the order in which they were made if and only if no committed change was
made for an event before a committed change for an event of an earlier transaction. -/
theorem C80_in_order_iff (hn : 0 < c.poolSize) {w : World} (h : Reach c src w) {i : Inc} (hi : i ∈ w.incs) (tp : Nat) :
    i.InOrder tp ↔ ((i.changes tp).filter fun x => i.Committed x.1).Pairwise fun x y => ¬ i.Later x.1 y.1 := by
  obtain ⟨j, hj⟩ := List.getElem?_of_mem hi
  obtain ⟨rest, J⟩ := (inv_reach hn h).all hj
  have hP : (((i.changes tp).filter fun x => i.Committed x.1).Pairwise fun x y => ¬ i.Later x.1 y.1) ↔
      ((i.changes tp).filter fun x => genOf i x < i.pool.ended.length).Pairwise fun x y => genOf i x ≤ genOf i y := by
    rw [committed_filter hn J]
    have hmem : ∀ x ∈ (i.changes tp).filter fun x => genOf i x < i.pool.ended.length, x ∈ i.prods :=
      fun x hx => List.mem_of_mem_filter (List.mem_of_mem_filter hx)
    constructor
    · intro hp; refine hp.imp_of_mem ?_
      intro x y hx hy hl
      rw [later_iff hn J (hmem x hx) (hmem y hy)] at hl
      omega
    · intro hp; refine hp.imp_of_mem ?_
      intro x y hx hy hl
      rw [later_iff hn J (hmem x hx) (hmem y hy)]
      omega
  rw [hP]
  unfold Inc.InOrder
  rw [committed_filter hn J, seen_groups hn J]
  constructor
  · intro h1; rw [← h1]; exact groups_pairwise _ _ _
  · intro h1
    rw [groups_filter, groups_sorted _ h1, List.filter_filter]
    simp

/-! ### Applications that keep the order -/

open Classical in
/-- **C80** (order, for applications that produce nothing for an event before all events of earlier transactions are complete). The log has the
changes of a partition in the order in which they were made: it is the beginning of the list of changes, without gaps. -/
theorem C80_settled_partial (hn : 0 < c.poolSize) {w : World} (h : ReachIf Inc.Settled c src w) {i : Inc} (hi : i ∈ w.incs) (tp : Nat) :
    i.InOrder tp ∧ i.seen tp <+: i.changes tp := by
  obtain ⟨j, hj⟩ := List.getElem?_of_mem hi
  obtain ⟨rest, J⟩ := (inv_reach hn h.reach).all hj
  have hs := changes_sorted hn J (ord_reach hn h i hi) tp
  unfold Inc.InOrder
  rw [seen_groups hn J, committed_filter hn J, groups_sorted _ hs]
  exact ⟨rfl, filter_prefix _ hs _⟩

/-- **C80** (order, for applications that handle the events of a partition one after the other in the order of arrival). -/
theorem C80_serial_partial (hn : 0 < c.poolSize) {w : World} (h : ReachIf Inc.Serial c src w) {i : Inc} (hi : i ∈ w.incs) (tp : Nat) :
    i.InOrder tp ∧ i.seen tp <+: i.changes tp :=
  C80_settled_partial hn (h.mono fun _ hr e => settled_of_serial hn hr e) hi tp

/-- **C80** (restored store, for such applications). The store that the next incarnation restores is the store of this one as it was after one of
its changes (or at the start); if everything is committed, it is the store as it is now. For every store and every way to apply changes. -/
theorem C80_restored_partial (hn : 0 < c.poolSize) {w : World} (h : ReachIf Inc.Serial c src w) (tp : Nat) {σ : Type}
    (apply : σ → Nat → σ) (s0 : σ) :
    (∃ k, restored apply s0 w.incs tp =
      (((w.cur.changes tp).take k).map Prod.snd).foldl apply (restored apply s0 w.past tp)) ∧
    ((∀ x ∈ w.cur.changes tp, w.cur.Committed x.1) → restored apply s0 w.incs tp = w.store apply s0 tp) := by
  obtain ⟨h1, h2⟩ := C80_serial_partial hn h (show w.cur ∈ w.incs by simp [World.incs]) tp
  have hsplit : restored apply s0 w.incs tp = ((w.cur.seen tp).map Prod.snd).foldl apply (restored apply s0 w.past tp) := by
    unfold restored World.incs
    rw [List.flatMap_append, List.flatMap_singleton, List.map_append, List.foldl_append]
  rw [hsplit]
  refine ⟨⟨(w.cur.seen tp).length, ?_⟩, ?_⟩
  · rw [← List.prefix_iff_eq_take.1 h2]
  · intro hc
    unfold Inc.InOrder at h1
    rw [h1, List.filter_eq_self.2 (by intro x hx; simpa using hc x hx)]
    rfl

/-! ### A run that meets the hypotheses

Partition 5: 10 and an interjection in one transaction, 12 in the next, each handled when the ones before are complete; 12 is handled while the
transaction of 10 is still open; it is committed, the transaction of 12 is not. -/

/-- The condition of `ReachIf Inc.Serial`, as a check. -/
def serialB (i : Inc) (e : Ev) : Bool :=
  ((i.pool.added.takeWhile fun x => x.1 ≠ e).filter fun x => x.1.part = e.part).all fun x => x.1.id ∈ i.pool.done

theorem serial_of_check {i : Inc} {e : Ev} (h : serialB i e = true) (hu : (i.pool.added.map Prod.fst).Nodup) : i.Serial e := by
  intro l1 l2 g hs x hx hp
  have htw : i.pool.added.takeWhile (fun x => x.1 ≠ e) = l1 := by
    rw [hs] at hu ⊢
    rw [List.map_append, List.map_cons, List.nodup_append] at hu
    rw [List.takeWhile_append_of_pos, List.takeWhile_cons, if_neg (by simp), List.append_nil]
    intro a ha
    simpa using hu.2.2 a.1 (List.mem_map.2 ⟨a, ha, rfl⟩) e (by simp)
  unfold serialB at h
  rw [htw, List.all_eq_true] at h
  simpa using h x (List.mem_filter.2 ⟨hx, by simpa using hp⟩)

/-- The condition is on the productions only. -/
def okAct (P : Inc → Ev → Bool) (i : Inc) : Act → Bool
  | .emit e _ => P i e
  | _ => true

/-- A run whose steps meet a condition, as a function. -/
def runIf (P : Inc → Ev → Bool) (c : Cfg) (src : Nat → List Nat) (w : World) : List Act → Option World
  | [] => some w
  | a :: as =>
    if okAct P w.cur a then (step c src w a).bind fun w' => runIf P c src w' as else none

theorem runIf_reach {P : Inc → Ev → Bool} {Q : Inc → Ev → Prop} (hPQ : ∀ w, Reach c src w → ∀ e, P w.cur e = true → Q w.cur e)
    {w w' : World} {as : List Act} (h : ReachIf Q c src w) (hr : runIf P c src w as = some w') : ReachIf Q c src w' := by
  induction as generalizing w with
  | nil => cases hr; exact h
  | cons a as ih =>
    simp only [runIf] at hr
    split at hr
    · rename_i hc
      simp only [Option.bind_eq_some_iff] at hr
      obtain ⟨w1, h1, h2⟩ := hr
      refine ih (.step a h ?_ h1) h2
      rintro e v rfl
      exact hPQ w h.reach e hc
    · simp at hr

theorem runIf_serial (hn : 0 < c.poolSize) {w : World} {as : List Act} (hr : runIf serialB c src (boot c src []) as = some w) :
    ReachIf Inc.Serial c src w := by
  refine runIf_reach (P := serialB) ?_ .init hr
  intro w hw e he
  refine serial_of_check he ?_
  have hids := (C04_in_order hn (inv_reach hn hw).cur.reach).2.2.2
  exact List.Nodup.of_map Ev.id (by rw [List.map_map]; exact hids)

def orderly : List Act :=
  [.feed 5 0, .pool .give, .pool .check, .emit ⟨0, 5, some 10⟩ 100, .emit ⟨0, 5, some 10⟩ 101, .pool (.complete ⟨0, 5, some 10⟩),
   .interject 5 1, .pool .give, .emit ⟨1, 5, none⟩ 150, .pool (.complete ⟨1, 5, none⟩), .pool .check, .pool .tryFlush, .pool .swapIn,
   .feed 5 2, .pool .give, .emit ⟨2, 5, some 12⟩ 200, .pool .take, .pool (.beginCommit [5]), .pool .wait, .pool .wait, .pool .wait,
   .pool (.endTxn [5])]

example : ∃ w, ReachIf Inc.Serial demoCfg demoSrc w ∧ (w.cur.seen 5).map Prod.snd = [100, 101, 150] ∧
    (w.cur.changes 5).map Prod.snd = [100, 101, 150, 200] ∧ restored (fun s v => s * 1000 + v) 0 w.incs 5 = 100101150 ∧
    w.store (fun s v => s * 1000 + v) 0 5 = 100101150200 := by
  have hd : ∃ w, runIf serialB demoCfg demoSrc (boot demoCfg demoSrc []) orderly = some w ∧ (w.cur.seen 5).map Prod.snd = [100, 101, 150] ∧
      (w.cur.changes 5).map Prod.snd = [100, 101, 150, 200] ∧ restored (fun s v => s * 1000 + v) 0 w.incs 5 = 100101150 ∧
      w.store (fun s v => s * 1000 + v) 0 5 = 100101150200 :=
    ⟨_, rfl, by decide +kernel, by decide +kernel, by decide +kernel, by decide +kernel⟩
  obtain ⟨w, h1, h2⟩ := hd
  exact ⟨w, runIf_serial (by decide) h1, h2⟩

/-! ### How the order is lost -/

/-- **C80**, in full: for every application the log has the committed changes of a partition in the order in which they were made. -/
def ChangesInOrder : Prop :=
  ∀ (c : Cfg) (src : Nat → List Nat), 0 < c.poolSize → (∀ tp, (src tp).Pairwise (· < ·)) → ∀ w, Reach c src w → ∀ i ∈ w.incs, ∀ tp, i.InOrder tp

/-- **C80**, in full, for stores: when everything is committed, a restored store is the store as it is. -/
def RestoredIsStore : Prop :=
  ∀ (c : Cfg) (src : Nat → List Nat), 0 < c.poolSize → (∀ tp, (src tp).Pairwise (· < ·)) → ∀ w, Reach c src w → ∀ tp,
    (∀ x ∈ w.cur.changes tp, w.cur.Committed x.1) → ∀ (σ : Type) (apply : σ → Nat → σ) (s0 : σ),
    restored apply s0 w.incs tp = w.store apply s0 tp

/-- The handlers of a partition run one at a time and source records are handled in order: what a partition worker guarantees to an application
that completes each event before its handler returns (`streams/partition_worker.go:233-253,263-276,303-317`). Only the place of the interjections
among the source records is open: they come through a channel of their own (`streams/partition_worker.go:193-204,235-238`). -/
def Inc.OneAtATime (i : Inc) (e : Ev) : Prop :=
  (∀ x ∈ i.prods, x.1 ≠ e → x.1.part = e.part → x.1.id ∈ i.pool.done) ∧
  (e.off ≠ none → ∀ l1 l2 g, i.pool.added = l1 ++ (e, g) :: l2 → ∀ x ∈ l1, x.1.part = e.part → x.1.off ≠ none → x.1.id ∈ i.pool.done)

def oneB (i : Inc) (e : Ev) : Bool :=
  (i.prods.filter fun x => x.1 ≠ e ∧ x.1.part = e.part).all (fun x => x.1.id ∈ i.pool.done) &&
  (e.off.isNone || ((i.pool.added.takeWhile fun x => x.1 ≠ e).filter fun x => x.1.part = e.part ∧ x.1.off ≠ none).all
    fun x => x.1.id ∈ i.pool.done)

theorem one_of_check {i : Inc} {e : Ev} (h : oneB i e = true) (hu : (i.pool.added.map Prod.fst).Nodup) : i.OneAtATime e := by
  unfold oneB at h
  rw [Bool.and_eq_true] at h
  refine ⟨?_, ?_⟩
  · intro x hx h1 h2
    have := List.all_eq_true.1 h.1 x (List.mem_filter.2 ⟨hx, by simp [h1, h2]⟩)
    simpa using this
  · intro ho l1 l2 g hs x hx hp hxo
    have htw : i.pool.added.takeWhile (fun x => x.1 ≠ e) = l1 := by
      rw [hs] at hu ⊢
      rw [List.map_append, List.map_cons, List.nodup_append] at hu
      rw [List.takeWhile_append_of_pos, List.takeWhile_cons, if_neg (by simp), List.append_nil]
      intro a ha
      simpa using hu.2.2 a.1 (List.mem_map.2 ⟨a, ha, rfl⟩) e (by simp)
    have h2 := h.2
    rw [htw, Bool.or_eq_true] at h2
    rcases h2 with h2 | h2
    · rw [Option.isNone_iff_eq_none] at h2; exact absurd h2 ho
    · have := List.all_eq_true.1 h2 x (List.mem_filter.2 ⟨hx, by simp [hp, hxo]⟩)
      simpa using this

theorem runIf_one (hn : 0 < c.poolSize) {w : World} {as : List Act} (hr : runIf oneB c src (boot c src []) as = some w) :
    ReachIf Inc.OneAtATime c src w := by
  refine runIf_reach (P := oneB) ?_ .init hr
  intro w hw e he
  refine one_of_check he ?_
  have hids := (C04_in_order hn (inv_reach hn hw).cur.reach).2.2.2
  exact List.Nodup.of_map Ev.id (by rw [List.map_map]; exact hids)

/-- A transaction with the records at 10 and 12, and one with `x`; then `mid`; then both transactions are committed. -/
def commitBoth (x : Act) (mid : List Act) : List Act :=
  [.feed 5 0, .pool .give, .pool .check, .feed 5 1, .pool .give, .pool .check, .pool .tryFlush, .pool .swapIn, x, .pool .give, .pool .check] ++
  mid ++
  [.pool .take, .pool (.beginCommit [5]), .pool .wait, .pool .wait, .pool .wait, .pool (.endTxn [5]), .pool .release, .pool .release,
   .pool .giveBack, .pool .tick, .pool .tryFlush, .pool .take, .pool (.beginCommit [5]), .pool .wait, .pool .wait, .pool (.endTxn [5])]

/-- The interjection of the second transaction is handled while both records of the first wait in `eventInput`. -/
def jumped : List Act :=
  commitBoth (.interject 5 2)
    [.emit ⟨2, 5, none⟩ 1, .pool (.complete ⟨2, 5, none⟩), .emit ⟨0, 5, some 10⟩ 2, .pool (.complete ⟨0, 5, some 10⟩),
     .pool (.complete ⟨1, 5, some 12⟩)]

/-- The record at 10 has an asynchronous job; its finalizer changes the store after the handler of 17. -/
def lateJob : List Act :=
  commitBoth (.feed 5 2)
    [.pool (.complete ⟨1, 5, some 12⟩), .emit ⟨2, 5, some 17⟩ 1, .pool (.complete ⟨2, 5, some 17⟩), .emit ⟨0, 5, some 10⟩ 2,
     .pool (.complete ⟨0, 5, some 10⟩)]

theorem demo_sorted : ∀ tp, (demoSrc tp).Pairwise (· < ·) := by
  intro tp; unfold demoSrc; split
  · decide
  · split <;> decide

theorem committed_of_check {i : Inc} {l : List (Ev × Nat)}
    (h : (l.all fun x => i.pool.added.any fun a => a.1 = x.1 ∧ (a.2, true) ∈ i.pool.ended) = true) : ∀ x ∈ l, i.Committed x.1 := by
  intro x hx
  have := List.all_eq_true.1 h x hx
  rw [List.any_eq_true] at this
  obtain ⟨⟨e, g⟩, h1, h2⟩ := this
  simp only [decide_eq_true_eq] at h2
  obtain ⟨rfl, h2⟩ := h2
  exact ⟨g, h1, h2⟩

theorem out_of_order {w : World} {tp : Nat} (hc : ∀ x ∈ w.cur.changes tp, w.cur.Committed x.1) (hne : w.cur.seen tp ≠ w.cur.changes tp) :
    ¬ w.cur.InOrder tp := by
  intro h
  apply hne
  unfold Inc.InOrder at h
  rw [h]
  exact List.filter_eq_self.2 (by intro x hx; simpa using hc x hx)

/-- **C80, violated by interjections.** The application changes one value; every handler completes its event, they run one at a time, source
records in their order. An interjection is in a later transaction than two source records that wait in the input of the worker and is handled
before them. Both transactions are committed; the store has the value of the source record, a restored store that of the interjection. -/
theorem C80_violated_interjection :
    (∃ w, ReachIf Inc.OneAtATime demoCfg demoSrc w ∧ (∀ x ∈ w.cur.changes 5, w.cur.Committed x.1) ∧
      w.cur.changes 5 = [(⟨2, 5, none⟩, 1), (⟨0, 5, some 10⟩, 2)] ∧ w.cur.seen 5 = [(⟨0, 5, some 10⟩, 2), (⟨2, 5, none⟩, 1)] ∧
      w.store (fun _ v => v) 0 5 = 2 ∧ restored (fun _ v => v) 0 w.incs 5 = 1) ∧
    ¬ ChangesInOrder ∧ ¬ RestoredIsStore := by
  have hd : ∃ w, runIf oneB demoCfg demoSrc (boot demoCfg demoSrc []) jumped = some w ∧
      ((w.cur.changes 5).all fun x => w.cur.pool.added.any fun a => a.1 = x.1 ∧ (a.2, true) ∈ w.cur.pool.ended) = true ∧
      w.cur.changes 5 = [(⟨2, 5, none⟩, 1), (⟨0, 5, some 10⟩, 2)] ∧ w.cur.seen 5 = [(⟨0, 5, some 10⟩, 2), (⟨2, 5, none⟩, 1)] ∧
      w.store (fun _ v => v) 0 5 = 2 ∧ restored (fun _ v => v) 0 w.incs 5 = 1 :=
    ⟨_, rfl, by decide +kernel, by decide +kernel, by decide +kernel, by decide +kernel, by decide +kernel⟩
  obtain ⟨w, h1, h2, h3, h4, h5, h6⟩ := hd
  have hr := runIf_one (by decide) h1
  have hc := committed_of_check h2
  refine ⟨⟨w, hr, hc, h3, h4, h5, h6⟩, ?_, ?_⟩
  · intro h
    refine out_of_order hc ?_ (h _ _ (by decide) demo_sorted w hr.reach w.cur (by simp [World.incs]) 5)
    rw [h3, h4]; decide
  · intro h
    have := h _ _ (by decide) demo_sorted w hr.reach 5 hc Nat (fun _ v => v) 0
    rw [h5, h6] at this
    omega

/-- **C80, violated by asynchronous jobs.** Without interjections: the finalizer of an event of an earlier transaction changes the store after the
handler of an event of a later one. -/
theorem C80_violated_async :
    ∃ w, Reach demoCfg demoSrc w ∧ (∀ x ∈ w.cur.pool.added, x.1.off ≠ none) ∧ (∀ x ∈ w.cur.changes 5, w.cur.Committed x.1) ∧
      w.cur.changes 5 = [(⟨2, 5, some 17⟩, 1), (⟨0, 5, some 10⟩, 2)] ∧ w.cur.seen 5 = [(⟨0, 5, some 10⟩, 2), (⟨2, 5, some 17⟩, 1)] ∧
      ¬ w.cur.InOrder 5 ∧ w.store (fun _ v => v) 0 5 = 2 ∧ restored (fun _ v => v) 0 w.incs 5 = 1 := by
  have hd : ∃ w, run demoCfg demoSrc (boot demoCfg demoSrc []) lateJob = some w ∧ (∀ x ∈ w.cur.pool.added, x.1.off ≠ none) ∧
      ((w.cur.changes 5).all fun x => w.cur.pool.added.any fun a => a.1 = x.1 ∧ (a.2, true) ∈ w.cur.pool.ended) = true ∧
      w.cur.changes 5 = [(⟨2, 5, some 17⟩, 1), (⟨0, 5, some 10⟩, 2)] ∧ w.cur.seen 5 = [(⟨0, 5, some 10⟩, 2), (⟨2, 5, some 17⟩, 1)] ∧
      w.store (fun _ v => v) 0 5 = 2 ∧ restored (fun _ v => v) 0 w.incs 5 = 1 :=
    ⟨_, rfl, by decide +kernel, by decide +kernel, by decide +kernel, by decide +kernel, by decide +kernel, by decide +kernel⟩
  obtain ⟨w, h1, h0, h2, h3, h4, h5, h6⟩ := hd
  have hc := committed_of_check h2
  exact ⟨w, run_reach .init h1, h0, hc, h3, h4, out_of_order hc (by rw [h3, h4]; decide), h5, h6⟩

end Verif.Effects
