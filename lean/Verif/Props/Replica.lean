import Verif.Replica.Proofs
import Verif.Props.Fleet
/-
Property C109: a group of consumers computes what one process would compute that handles the records of a partition one after the other. For every
number of consumers and of transactional producers, every batch size, every interleaving, every application (with state) and every source topic
with increasing offsets; consumers start, die, get and lose partitions at any time.
-/
namespace Verif.Replica
open Verif.Eos Verif.Effects Verif.Fleet

variable {σ X : Type} {c : Cfg} {a : Exact.App σ X} {src : Nat → List Nat} {val : Nat → Nat → X}

/-! ### Runs that meet the hypotheses

The application keeps a sum: for a record with number `x` it produces the sum of `x` and the store, and a 7; both are added to the store. Partition 5
has the numbers 1, 2, 3 at the offsets 10, 12, 17. -/

def demoApp : Exact.App Nat Nat := ⟨0, fun s x => [s + x, 7], fun s y => s + y⟩

def demoVal : Nat → Nat → Nat := fun _ o => if o = 10 then 1 else if o = 12 then 2 else 3

/-- Consumer `k` adds its next record of partition 5 as event `id` and calls the handler, which produces its first record. -/
def take (k id : Nat) : List Act :=
  [.feed k 5 id, .pool k .give, .begin k 5, .emit k 5, .pool k .check, .pool k .tryFlush, .pool k .swapIn]

/-- The handler produces its second record and returns, while the transaction is being committed. -/
def commit (k : Nat) : List Act :=
  [.pool k .take, .pool k (.beginCommit [5]), .pool k .wait, .emit k 5, .finish k 5, .pool k .wait, .pool k (.endTxn [5]),
   .pool k .release, .pool k .release, .pool k .giveBack]

/-- Consumer 0 commits 10 and loses the partition; consumer 1 handles a part of 12 and dies; consumer 0 gets the partition again and commits 12. -/
def demo : List Act :=
  [.start, .start, .assign 0 5] ++ take 0 0 ++ commit 0 ++ [.revoke 0 5, .assign 1 5] ++ take 1 0 ++ [.crash 1, .assign 0 5] ++ take 0 1 ++ commit 0

/-- A start that can be seen to be orderly. -/
def orderlyB (w : W σ) : Act → Bool
  | .assign k tp => Fleet.orderlyB w.g (.assign k tp (w.g.wm tp))
  | _ => true

theorem orderlyB_orderly {w : W σ} {x : Act} (h : orderlyB w x = true) : Orderly w x := by
  cases x with
  | assign k tp => exact (Fleet.orderlyB_orderly (w := w.g) (a := .assign k tp (w.g.wm tp)) h).2
  | _ => exact trivial

/-- A run with orderly starts. -/
def runB (c : Cfg) (a : Exact.App σ X) (src : Nat → List Nat) (val : Nat → Nat → X) (w : W σ) : List Act → Option (W σ)
  | [] => some w
  | x :: xs => if orderlyB w x then (step c a src val w x).bind fun w' => runB c a src val w' xs else none

theorem runB_calm {w w' : W σ} {xs : List Act} (h : Calm c a src val w) (hr : runB c a src val w xs = some w') : Calm c a src val w' := by
  induction xs generalizing w with
  | nil => cases hr; exact h
  | cons x xs ih =>
    simp only [runB] at hr
    split at hr
    · rename_i ho
      obtain ⟨w1, h1, h2⟩ := Option.bind_eq_some_iff.1 hr
      exact ih (.step x h (orderlyB_orderly ho) h1) h2
    · cases hr

/-! ### C109 -/

/-- **C109**, in part (the records). If workers start in order, then at every moment and for every partition the records of the application that
readers see, from all consumers of the group together, are those that one process would have produced by handling the source records below
the newest offset record one after the other, in that order. Missing: the condition (see `C109_violated`), asynchronous jobs and interjections (see C80). -/
theorem C109_sequential_partial (hn : 0 < c.poolSize) (hsrc : ∀ tp, (src tp).Pairwise (· < ·)) {w : W σ} (h : Calm c a src val w) (tp : Nat) :
    w.vis tp = (Exact.handleAll a (((src tp).filter fun o => o < w.g.wm tp).map (val tp))).2 :=
  (inv_calm hn hsrc h).vis tp

/-- **C109**, in part (the store). Whenever a consumer calls the handler, it has the store that the one process would have at that record. Missing: as above. -/
theorem C109_store_partial (hn : 0 < c.poolSize) (hsrc : ∀ tp, (src tp).Pairwise (· < ·)) {w w' : W σ} (h : Calm c a src val w) {k tp : Nat}
    (hs : step c a src val w (.begin k tp) = some w') :
    ∃ e o, e.off = some o ∧ e.part = tp ∧ (w.queue k tp).head? = some e ∧ o ∈ src tp ∧
      w.st k tp = (Exact.handleAll a (((src tp).filter fun o' => o' < o).map (val tp))).1 ∧
      w'.cur k tp = some (e, a.handle (w.st k tp) (val tp o)) := by
  obtain ⟨fin, pre, K⟩ := (inv_calm hn hsrc h).cells k tp
  simp only [step] at hs
  split at hs
  · split at hs
    · rename_i e q hcur hq
      split at hs
      · cases hs
        rw [hcur, hq] at K
        obtain ⟨hp, g, hm⟩ := K.mem (List.mem_append_right fin (show e ∈ todo none (e :: q) by simp [todo]))
        refine ⟨e, offOf e, K.offs _ hm hp, hp, by rw [hq]; rfl, ?_, (K.begin (hsrc tp)).2, ?_⟩
        · rcases K.link with ⟨-, h1, -⟩ | ⟨u, r, h1, -⟩
          · cases h1
          · have : offOf e ∈ (src tp).filter fun o => u ≤ o := by rw [← h1]; simp [todo]
            exact (List.mem_filter.1 this).1
        · show put w.cur k tp _ k tp = _
          rw [put_eq, if_pos ⟨rfl, rfl⟩]; rfl
      · cases hs
    · cases hs
  · cases hs

/-- **C109**, in part (a new worker). The store that a new worker restores from the change log is the one of the one process at the offset where the
worker starts. Missing: as above. -/
theorem C109_restored_partial (hn : 0 < c.poolSize) (hsrc : ∀ tp, (src tp).Pairwise (· < ·)) {w w' : W σ} (h : Calm c a src val w) {k tp : Nat}
    (hs : step c a src val w (.assign k tp) = some w') :
    w'.st k tp = (Exact.handleAll a (((src tp).filter fun o => o < w.g.wm tp).map (val tp))).1 ∧
    w'.g.work k tp = some ((src tp).filter fun o => w.g.wm tp ≤ o) := by
  have I := inv_calm hn hsrc h
  simp only [step, Fleet.step] at hs
  split at hs
  · cases hs
    constructor
    · show put w.st k tp _ k tp = _
      rw [put_eq, if_pos ⟨rfl, rfl⟩, I.vis, state_outs]; rfl
    · show (w.g.setWork k tp _).work k tp = _
      rw [setWork_work, if_pos ⟨rfl, rfl⟩]
  · cases hs

/-- **C109**, in part (each record). What readers see for a source record below the newest offset record, from all consumers together, is what the
one process produces for it. Missing: as above. -/
theorem C109_record_partial (hn : 0 < c.poolSize) (hsrc : ∀ tp, (src tp).Pairwise (· < ·)) {w : W σ} (h : Calm c a src val w) {tp o : Nat}
    (ho : o ∈ src tp) (hw : o < w.g.wm tp) :
    w.g.effects tp o = a.handle (Exact.handleAll a (((src tp).filter fun o' => o' < o).map (val tp))).1 (val tp o) := by
  have I := inv_calm hn hsrc h
  obtain ⟨k, e, -, hp, hoff, hc, he, -⟩ := C94_once_partial hn hsrc I.calm ho hw
  rw [he]
  obtain ⟨fin, pre, K⟩ := I.cells k tp
  have C := cores hn I.calm.reach k
  obtain ⟨g, hm, hen⟩ := hc
  have hmem : e ∈ fin ++ todo (w.cur k tp) (w.queue k tp) := by
    rw [← K.evs]
    exact List.mem_map.2 ⟨(e, g), List.mem_filter.2 ⟨hm, by simpa using hp⟩, rfl⟩
  rcases List.mem_append.1 hmem with hf | ht
  · rw [K.made hn C hf]
    have : offOf e = o := by unfold offOf; rw [hoff]; rfl
    rw [this]; rfl
  · exact absurd (ended_done hn C.reach (List.mem_map.2 ⟨_, hen, rfl⟩) e hm) (K.open_ e ht)

/-- **C109**, in part (one result). Two groups that have come equally far with a partition, with any numbers of consumers and producers and any histories
of assignments and crashes, show the same records for it; if one has come less far, it shows the first of them. Missing: as above. -/
theorem C109_same_partial {c1 c2 : Cfg} (hn1 : 0 < c1.poolSize) (hn2 : 0 < c2.poolSize) (hsrc : ∀ tp, (src tp).Pairwise (· < ·)) {w1 w2 : W σ}
    (h1 : Calm c1 a src val w1) (h2 : Calm c2 a src val w2) (tp : Nat) (hle : w1.g.wm tp ≤ w2.g.wm tp) :
    w1.vis tp <+: w2.vis tp ∧ (w1.g.wm tp = w2.g.wm tp → w1.vis tp = w2.vis tp) := by
  have e1 := C109_sequential_partial hn1 hsrc h1 tp
  have e2 := C109_sequential_partial hn2 hsrc h2 tp
  constructor
  · rw [e1, e2]
    have hs : ((src tp).filter fun o => decide (o < w1.g.wm tp)) <+: (src tp).filter fun o => decide (o < w2.g.wm tp) := by
      have h3 : ((src tp).filter fun o => decide (o < w1.g.wm tp)) =
          ((src tp).filter fun o => decide (o < w2.g.wm tp)).filter fun o => decide (o < w1.g.wm tp) := by
        rw [List.filter_filter]
        apply List.filter_congr
        intro o _
        by_cases ho : o < w1.g.wm tp
        · have : o < w2.g.wm tp := by omega
          simp [ho, this]
        · simp [ho]
      rw [h3]
      have h4 := Exact.filter_split (k := fun x : Nat => x) (l := (src tp).filter fun o => decide (o < w2.g.wm tp))
        (by simpa using ((hsrc tp).sublist List.filter_sublist).imp (fun h => Nat.le_of_lt h)) (w1.g.wm tp)
      exact ⟨_, h4.symm⟩
    obtain ⟨t, ht⟩ := hs
    rw [← ht, List.map_append, Exact.handleAll_eq, Exact.handleAll_eq, Exact.effects_append]
    exact ⟨_, rfl⟩
  · intro he; rw [e1, e2, he]

/-- The run of above, and what the one process does. -/
example : ∃ w, Calm Fleet.demoCfg demoApp Fleet.demoSrc demoVal w ∧ w.g.log 5 = [11, 13] ∧ w.vis 5 = [1, 7, 10, 7] ∧ w.st 0 5 = 25 ∧
    w.g.work 0 5 = some [17] ∧ w.g.effects 5 12 = [10, 7] ∧ w.g.alive 1 = false ∧
    (Exact.handleAll demoApp [1, 2]) = (25, [1, 7, 10, 7]) := by
  have hd : ∃ w, runB Fleet.demoCfg demoApp Fleet.demoSrc demoVal (W.init Fleet.demoCfg demoApp) demo = some w ∧ w.g.log 5 = [11, 13] ∧ w.vis 5 = [1, 7, 10, 7] ∧
      w.st 0 5 = 25 ∧ w.g.work 0 5 = some [17] ∧ w.g.effects 5 12 = [10, 7] ∧ w.g.alive 1 = false :=
    ⟨_, rfl, by decide +kernel, by decide +kernel, by decide +kernel, by decide +kernel, by decide +kernel, by decide +kernel⟩
  obtain ⟨w, h1, h2, h3, h4, h5, h6, h7⟩ := hd
  exact ⟨w, runB_calm .init h1, h2, h3, h4, h5, h6, h7, by decide⟩

/-- The hypotheses of `C109_store_partial` and `C109_restored_partial`: the steps of the run of above in which consumer 1 gets the partition and calls the
handler with the store 8, which it has restored from what consumer 0 produced. -/
example : ∃ w w' v v', Calm Fleet.demoCfg demoApp Fleet.demoSrc demoVal w ∧ step Fleet.demoCfg demoApp Fleet.demoSrc demoVal w (.assign 1 5) = some w' ∧
    w'.st 1 5 = 8 ∧ w'.g.work 1 5 = some [12, 17] ∧ Calm Fleet.demoCfg demoApp Fleet.demoSrc demoVal v ∧
    step Fleet.demoCfg demoApp Fleet.demoSrc demoVal v (.begin 1 5) = some v' ∧ v.st 1 5 = 8 ∧ v'.cur 1 5 = some (⟨0, 5, some 12⟩, [10, 7]) := by
  have hd : ∃ w w' v v', runB Fleet.demoCfg demoApp Fleet.demoSrc demoVal (W.init Fleet.demoCfg demoApp)
        ([.start, .start, .assign 0 5] ++ take 0 0 ++ commit 0 ++ [.revoke 0 5]) = some w ∧
      step Fleet.demoCfg demoApp Fleet.demoSrc demoVal w (.assign 1 5) = some w' ∧ w'.st 1 5 = 8 ∧ w'.g.work 1 5 = some [12, 17] ∧
      runB Fleet.demoCfg demoApp Fleet.demoSrc demoVal w [.assign 1 5, .feed 1 5 0, .pool 1 .give] = some v ∧
      step Fleet.demoCfg demoApp Fleet.demoSrc demoVal v (.begin 1 5) = some v' ∧ v.st 1 5 = 8 ∧ v'.cur 1 5 = some (⟨0, 5, some 12⟩, [10, 7]) :=
    ⟨_, _, _, _, rfl, rfl, by decide +kernel, by decide +kernel, rfl, rfl, by decide +kernel, by decide +kernel⟩
  obtain ⟨w, w', v, v', h1, h2, h3, h4, h5, h6⟩ := hd
  exact ⟨w, w', v, v', runB_calm .init h1, h2, h3, h4, runB_calm (runB_calm .init h1) h5, h6⟩

/-- **C109**, in part (the end). When a living consumer has been given all records of its partition and has no uncommitted ones, readers see the whole result
of the one process, and the store of the worker is the one that the one process has at the end. Missing: as above. -/
theorem C109_complete_partial (hn : 0 < c.poolSize) (hsrc : ∀ tp, (src tp).Pairwise (· < ·)) {w : W σ} (h : Calm c a src val w) {k tp : Nat}
    (hk : w.g.alive k = true) (hw : w.g.work k tp = some []) (hb : ¬ Busy (w.g.inst k) tp) :
    w.vis tp = (Exact.handleAll a ((src tp).map (val tp))).2 ∧ w.st k tp = (Exact.handleAll a ((src tp).map (val tp))).1 := by
  have I := inv_calm hn hsrc h
  have C := cores hn I.calm.reach k
  obtain ⟨last, O⟩ := once_calm hn hsrc I.calm
  have all : ∀ u, [] = ((src tp).filter fun o => decide (u ≤ o)) → ((src tp).filter fun o => decide (o < u)) = src tp := by
    intro u hu
    have h1 := Exact.filter_split (k := fun x : Nat => x) (l := src tp) (by simpa using (hsrc tp).imp (fun h => Nat.le_of_lt h)) u
    rw [← hu, List.append_nil] at h1
    exact h1.symm
  have hl : last tp = some k := by
    by_contra hne
    have := (O.idle k tp hne hk).2
    rw [hw] at this; cases this
  obtain ⟨r, hr, hwr⟩ := O.act k tp hl hk
  rw [not_busy hn C hb, hwr _ hw] at hr
  refine ⟨by rw [C109_sequential_partial hn hsrc h tp, all _ hr], ?_⟩
  obtain ⟨fin, pre, K⟩ := I.cells k tp
  obtain ⟨hc0, hq0⟩ := todo_nil (idle_cell hn C K hb)
  rcases K.link with ⟨h1, -⟩ | ⟨u, r, h1, h2, h3⟩
  · rw [hw] at h1; cases h1
  · rw [h2 _ hw, hc0, hq0] at h1
    rw [h3 hc0]
    unfold stateAt before
    rw [all u h1]

/-- The hypotheses of `C109_complete_partial`: the run of above goes on with 17. -/
example : ∃ w, Calm Fleet.demoCfg demoApp Fleet.demoSrc demoVal w ∧ w.g.alive 0 = true ∧ w.g.work 0 5 = some [] ∧ ¬ Busy (w.g.inst 0) 5 ∧
    w.vis 5 = [1, 7, 10, 7, 28, 7] ∧ w.st 0 5 = 60 := by
  have hd : ∃ w, runB Fleet.demoCfg demoApp Fleet.demoSrc demoVal (W.init Fleet.demoCfg demoApp) (demo ++ take 0 2 ++ commit 0) = some w ∧
      w.g.alive 0 = true ∧ w.g.work 0 5 = some [] ∧ (∀ x ∈ (w.g.inst 0).pool.added, (x.2, true) ∈ (w.g.inst 0).pool.ended) ∧
      w.vis 5 = [1, 7, 10, 7, 28, 7] ∧ w.st 0 5 = 60 :=
    ⟨_, rfl, by decide +kernel, by decide +kernel, by decide +kernel, by decide +kernel, by decide +kernel⟩
  obtain ⟨w, h1, h2, h3, h4, h5⟩ := hd
  refine ⟨w, runB_calm .init h1, h2, h3, ?_, h5⟩
  rintro ⟨e, g, h6, -, -, h7⟩
  exact h7 (h4 (e, g) h6)

/-- **C109 is violated** without the condition. Consumer 0 adds 10 and loses the partition, consumer 1 gets it and starts at the newest offset record; both commit.
Readers see the records for 10 twice, and consumer 2, which gets the partition next, starts with the store 16 although the one process has 8. -/
theorem C109_violated : ∃ w w' : W Nat, run Fleet.demoCfg demoApp Fleet.demoSrc demoVal (W.init Fleet.demoCfg demoApp)
      ([.start, .start, .start, .assign 0 5] ++ take 0 0 ++ [.revoke 0 5, .assign 1 5] ++ take 1 0 ++ commit 0 ++ commit 1 ++ [.revoke 1 5]) = some w ∧
    w.g.n = 3 ∧ (∀ j < 3, w.g.work j 5 = none) ∧ w.g.wm 5 = 11 ∧ w.vis 5 = [1, 7, 1, 7] ∧ step Fleet.demoCfg demoApp Fleet.demoSrc demoVal w (.assign 2 5) = some w' ∧
    w'.st 2 5 = 16 ∧ Exact.handleAll demoApp [1] = (8, [1, 7]) := by
  exact ⟨_, _, rfl, by decide +kernel, by decide +kernel, by decide +kernel, by decide +kernel, rfl, by decide +kernel, by decide⟩

end Verif.Replica
